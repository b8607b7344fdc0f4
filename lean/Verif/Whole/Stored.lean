/-
C75: from source objects and documents to assembly, with variables that are kept in memory.
-/
import Verif.Whole.Document
import Verif.Stored.Theorems
namespace Grey.Whole
open List Grey.Cfg Grey.Inline Grey.Lower Grey.Sfs Grey.Program Grey.SymExec Grey.Front Grey.Stored Grey.Parser

/-- What has to be checked for the program `P`, as in `Checked`, where the schedules may load and store variables: the operations written
for the blocks are right, given the places `L` of the variables (`PlacesOk`, `BlockStored`). -/
structure CheckedStored {C : Type} (P : Prog) (I : Interp Nat (Loc → C)) (L : Places) (W : Written) : Prop where
  one : ∀ f F, P.fns f = some F → Layout.OneJoin F.graph
  live : ∀ f F, P.fns f = some F → ∀ B ∈ F.graph.blocks, P.exit F B = .ret → F.graph.liveOut B.id = []
  place : ∀ f F, P.fns f = some F → Placeable F.graph
  places : PlacesOk P L
  blocks : ∀ f F, P.fns f = some F → ∃ st, Layout.drive F.graph = .ok st ∧ ∀ B ∈ F.graph.blocks, ∀ src tgt, (B.id, src, tgt) ∈ st.specs →
    BlockStored I L f B.id (F.instrs B.id) (F.split B.id) src tgt (F.graph.canJunk B.id) (W.pids f B.id) (W.regs f B.id) (W.dups f B.id)
      (W.ops f B.id) ∧
    (Layout.substDuplicates src).Nodup ∧ ∀ v ∈ F.exitOuts B, v ∉ src
  terminal : ∀ f F, P.fns f = some F → ∀ B ∈ F.graph.blocks, B.jumpType = "terminal" → W.sched f B.id = [] → B.phis = [] ∧ F.instrs B.id = []

/-- Two ends with the same operation and the same arguments, in states that agree outside the cells. -/
def SameEnd {C : Type} (cells : Nat → Prop) (h h' : Halted Nat (Loc → C)) : Prop :=
  h'.op = h.op ∧ h'.args = h.args ∧ SameOutside cells h.world h'.world

/-- The assembly does what the source does (`ends` are the ends of its executions), up to what is in the cells: started in a state `w'` that agrees
with `w` outside the cells, with any stack, the machine ends with an operation exactly if the source does, with the same operation and
arguments, in a state that agrees outside the cells; and it runs forever if the source does. -/
def SameBehaviour {C : Type} (I : Interp Nat (Loc → C)) (arity : String → Nat) (code : List Output.Asm) (cells : Nat → Prop)
    (ends : Halted Nat (Loc → C) → Prop) (w : Loc → C) : Prop :=
  ∀ (w' : Loc → C) (below : List Nat), SameOutside cells w w' →
    (∀ h, ends h → ∃ n h', FRuns code I arity ⟨0, below, w'⟩ n (.inr h') ∧ SameEnd cells h h') ∧
    (∀ n h', FRuns code I arity ⟨0, below, w'⟩ n (.inr h') → ∃ h, ends h ∧ SameEnd cells h h') ∧
    ((¬ ∃ h, ends h) → ∀ k, ∃ n st, k ≤ n ∧ FRuns code I arity ⟨0, below, w'⟩ n (.inl st))

section
variable {C : Type} [Nonempty C] {names : List String} {R : Option String → Option String} {f2t : List (String × Nat)} {T : TagDict} {O H O' : Obj}
  {dec : String → String × Option (List String)} {I : Interp Nat (Loc → C)} {main : String} {A : Option String → Analysis} {arity : String → Nat}
  {val : Nat → Nat} {L : Places} {W : Written}

theorem lowered_stored (hv : Inv names R f2t O (fun _ _ => False) H O' T) (hr : Ready names R T H O' dec I main) (hn : names.Nodup)
    (hF : ∀ c C, H.comp c = some C → FineComp names C) (he : Emittable dec I arity names O) (hval : TagMeaning I val) (hnum : ∀ n, I.num n = n)
    (hmem : MemoryOk I arity) (hc : CheckedStored (toProg names dec main A O') I L W) (fuel : Nat)
    (hfuel : ∀ f F, (toProg names dec main A O').fns f = some F → F.graph.blocks.length ≤ fuel) {S : Obj}
    (hS : ∀ w, RunsLike I dec (toProg names dec main A O') (entry I main O' w) S w) :
    ∃ code, assemble (toProg names dec main A O') names (tagOf T) W.sched fuel = some code ∧
      ∀ w, ¬ Wrong (run (meaning I dec) (zeros I) S (w, none)) none →
        (∀ tr c, Program.Runs (toProg names dec main A O') I (entry I main O' w) tr (.inl c) → KeepsAway (toProg names dec main A O') I L W c) →
        SameBehaviour I arity code L.cell (fun h => ∃ s, Ends (run (meaning I dec) (zeros I) S (w, none)) none s ∧ haltedOf s = h) w := by
  have hok : ∀ f F, (toProg names dec main A O').fns f = some F → FnOk (toProg names dec main A O') I (destOf main H T val) f F := by
    intro f F hf
    refine fn_ok hv hr hF he hval hf (hc.one f F hf) ?_ (hc.live f F hf)
    intro hne b
    obtain ⟨comp, K, K', rfl, hK, -, -, rfl⟩ := prog_fn hr hf
    cases comp with
    | none => exact absurd rfl hne
    | some g => rfl
  have hst : ∀ f F, (toProg names dec main A O').fns f = some F → ∃ st, StoredFn (toProg names dec main A O') I L W arity (tagOf T) f F st := by
    intro f F hf
    obtain ⟨st, h1, h2⟩ := hc.blocks f F hf
    exact ⟨st, h1, h2, hc.place f F hf, end_ok hv hr hF he hf, writable hv hr hF he hf, fun B hB h => absurd h (no_fall hr hf B hB),
      hc.terminal f F hf⟩
  have ht := tags_ok (A := A) hv hr hn hval
  have hM : ∃ M, (toProg names dec main A O').fns (toProg names dec main A O').main = some M ∧ M.graph.start = O'.main.start.getD "" := by
    refine ⟨_, if_pos rfl, rfl⟩
  obtain ⟨M, hM, hstart⟩ := hM
  obtain ⟨code, hcode, hruns⟩ := stored_assembly_runs_partial hnum hmem hc.places hok hst ht hM fuel hfuel
  refine ⟨code, hcode, fun w hw haway w' below hsame => ?_⟩
  obtain ⟨hends, hwrong⟩ := hS w
  have hentry : entry I main O' w = ⟨(toProg names dec main A O').main, M.graph.start, fun _ => I.num 0, [], w⟩ := by
    unfold entry; rw [hstart]; rfl
  have hu := tags_unique (A := A) hv hr hval (w := w)
  rw [hentry] at haway
  refine ⟨fun h hh => ?_, fun n h' hrun => ?_, fun hno k => ?_⟩
  · obtain ⟨tr, hrun⟩ := (hends h).2 hh
    rw [hentry] at hrun
    obtain ⟨n, h', h1, h2, h3, h4⟩ := (hruns _ w w' below tr _ haway hsame hrun).1 h rfl
    exact ⟨n, h', h1, h2, h3, h4⟩
  · rcases stored_assembly_only_runs_partial hnum hmem hc.places hok hst ht hu hM fuel hfuel hcode (fun _ => I.num 0) w w' below haway hsame hrun with
      ⟨tr, h, h1, h2, h3, h4⟩ | h1
    · rw [← hentry] at h1
      exact ⟨h, (hends h).1 ⟨tr, h1⟩, h2, h3, h4⟩
    · rw [← hentry] at h1
      exact absurd (hwrong.1 h1) hw
  · have h1 : ¬ ∃ h tr, Program.Runs (toProg names dec main A O') I (entry I main O' w) tr (.inr h) := by
      rintro ⟨h, tr, hrun⟩
      exact hno ⟨h, (hends h).1 ⟨tr, hrun⟩⟩
    obtain ⟨tr, d, hk, hrun⟩ := runs_forever h1 (fun h => hw (hwrong.1 h)) k
    rw [hentry] at hrun
    obtain ⟨n, s, hn, hf, _⟩ := (hruns _ w w' below tr _ haway hsame hrun).2 d rfl
    exact ⟨n, s, by omega, hf⟩

end

/-- **C75.** C64 for schedules that keep variables in memory: the front end succeeds. If for the program that results nothing is wrong with
the analyses, layouts and schedules and with the places of the variables (`CheckedStored`), the assembly is written. From every state in which
the object does not get stuck and the program keeps away from the cells, the assembly does what the object does, up to what is in the cells.

Partial: `CheckedStored` is assumed; the places that the reparation chooses are not always right (C29, C31, C32). -/
theorem whole_compiler_stored_partial {C : Type} [Nonempty C] {names order : List String} {O : Obj} {dec : String → String × Option (List String)}
    {I : Interp Nat (Loc → C)} {arity : String → Nat} {val : Nat → Nat} {main : String} (K : Compilable names O) (ho : CalleesFirst O order)
    (hE : Ending names O) (hI : OpsOk names dec I O) (hm : main ∉ names ++ Lower.haltOps) (he : Emittable dec I arity names O)
    (hval : TagMeaning I val) (hnum : ∀ n, I.num n = n) (hmem : MemoryOk I arity) :
    ∃ names' O' T, frontEnd names order O = some (names', O', T) ∧
      ∀ (A : Option String → Analysis) (L : Places) (W : Written) (fuel : Nat), CheckedStored (toProg names' dec main A O') I L W →
        (∀ f F, (toProg names' dec main A O').fns f = some F → F.graph.blocks.length ≤ fuel) →
        ∃ code, assemble (toProg names' dec main A O') names' (tagOf T) W.sched fuel = some code ∧
          ∀ w, ¬ Wrong (run (meaning I dec) (zeros I) O (w, none)) none →
            (∀ tr c, Program.Runs (toProg names' dec main A O') I (entry I main O' w) tr (.inl c) → KeepsAway (toProg names' dec main A O') I L W c) →
            SameBehaviour I arity code L.cell (fun h => ∃ s, Ends (run (meaning I dec) (zeros I) O (w, none)) none s ∧ haltedOf s = h) w := by
  obtain ⟨O1, p1, p2, p3, p4, p5, p6⟩ := preprocessed_lowerable K ho
  obtain ⟨O', T, f2t, H, h1, hv⟩ := lower_deco p4
  have hI' := ops_after p5 hI
  have hm' : main ∉ (names.filter fun f => (O1.fns f).isSome) ++ Lower.haltOps := by
    intro h2
    rcases mem_append.1 h2 with h3 | h3
    · exact hm (mem_append.2 (Or.inl (mem_filter.1 h3).1))
    · exact hm (mem_append.2 (Or.inr h3))
  have hr := ready_of_inv hv hI' hm'
  refine ⟨_, O', T, by unfold frontEnd; rw [p1, Option.bind_some, h1]; rfl, ?_⟩
  intro A L W fuel hc hfuel
  refine lowered_stored hv hr (K.nodup.filter _) (hv.fine (p6 hE)) (emittable_after p5 hI he) hval hnum hmem hc fuel hfuel fun w => ?_
  obtain ⟨n', O2, T2, g1, -, g2⟩ := front_end_preserves K ho
  have g1' : frontEnd names order O = some (names.filter fun f => (O1.fns f).isSome, O', T) := by unfold frontEnd; rw [p1, Option.bind_some, h1]; rfl
  rw [g1'] at g1
  cases g1
  exact g2 _ _ I dec main A hI hm w

/-- **C75**, from the document: C67 for schedules that keep variables in memory.

Partial: as C67 and `whole_compiler_stored_partial`. -/
theorem document_to_assembly_stored_partial {C : Type} [Nonempty C] {J : JObj} {order : List String}
    {dec : String → String × Option (List String)} {I : Interp Nat (Loc → C)} {arity : String → Nat} {val : Nat → Nat} {main : String}
    (hJ : DocOk J) (hu : Underscores J) :
    ∃ O, parseObject J = some O ∧ (Compilable (J.functions.map (·.1)) O → CalleesFirst O order → Ending (J.functions.map (·.1)) O →
      OpsOk (J.functions.map (·.1)) dec I O → main ∉ J.functions.map (·.1) ++ Lower.haltOps → Emittable dec I arity (J.functions.map (·.1)) O →
      TagMeaning I val → (∀ n, I.num n = n) → MemoryOk I arity →
      ∃ names' O' T, frontEnd (J.functions.map (·.1)) order O = some (names', O', T) ∧
        ∀ (A : Option String → Analysis) (L : Places) (W : Written) (fuel : Nat), CheckedStored (toProg names' dec main A O') I L W →
          (∀ f F, (toProg names' dec main A O').fns f = some F → F.graph.blocks.length ≤ fuel) →
          ∃ code, assemble (toProg names' dec main A O') names' (tagOf T) W.sched fuel = some code ∧
            ∀ w, ¬ Wrong (jrun (meaning I dec) (zeros I) J (w, none)) none →
              (∀ tr c, Program.Runs (toProg names' dec main A O') I (entry I main O' w) tr (.inl c) → KeepsAway (toProg names' dec main A O') I L W c) →
              SameBehaviour I arity code L.cell (fun h => ∃ s, Ends (jrun (meaning I dec) (zeros I) J (w, none)) none s ∧ haltedOf s = h) w) := by
  obtain ⟨O, hO, hs⟩ := parsed_runs_partial hJ hu
  refine ⟨O, hO, ?_⟩
  intro K ho hE hI hm he hval hnum hmem
  obtain ⟨names', O', T, h1, h2⟩ := whole_compiler_stored_partial K ho hE hI hm he hval hnum hmem
  refine ⟨names', O', T, h1, ?_⟩
  intro A L W fuel hc hf
  obtain ⟨code, h3, h4⟩ := h2 A L W fuel hc hf
  refine ⟨code, h3, ?_⟩
  intro w hw haway
  have hsame := hs _ _ (meaning I dec) (zeros I) (w, none)
  have h5 := h4 w (fun h => hw (hsame.2.2 h)) haway
  have he : (fun h => ∃ s, Ends (run (meaning I dec) (zeros I) O (w, none)) none s ∧ haltedOf s = h) =
      fun h => ∃ s, Ends (jrun (meaning I dec) (zeros I) J (w, none)) none s ∧ haltedOf s = h := by
    funext h
    exact propext (exists_congr fun s => and_congr_left' (hsame.1 s).symm)
  rw [he] at h5
  exact h5

end Grey.Whole
