/-
C53 for the code that is generated: layouts, specifications and accepted schedules put together.
-/
import Verif.Program.Theorems
namespace Grey.Program
open List Grey.Layout Grey.Sfs Grey.SymExec

/-- The meaning of an instruction of a specification, found by its id. -/
def semOf {V σ : Type} (I : Interp V σ) (es : List Entry) : Sem V σ := fun u args w =>
  match es.find? fun e => e.instr.id == u.id with
  | some e => e.sem I args w
  | none => ([], w)

/-- The specification of a block: the layouts of the component (src/liveness/layout_generation.py:338-376) and the
specification built from the layout of the block (lines 236-248; src/parser/cfg_block.py:634-658). The assignments of constants
of a block are left out (they are part of C51). -/
def builtOf (P : Prog) (f b : String) : Option Built :=
  (P.fns f).bind fun F => (drive F.graph).toOption.bind fun st => (st.specs.lookup b).bind fun lay =>
    (buildSpec (F.instrs b) (F.split b) [] (substDuplicates lay.1) lay.2).map (·.1)

/-- The code that is generated for the program: for every block its specification and the ids that the scheduler returns for
it, `sched` (src/greedy/greedy_new_version.py; any scheduler will do). The last instruction is that of
src/solution_generation/reconstruct_bytecode.py:85-115. -/
def compile {V σ : Type} (P : Prog) (I : Interp V σ) (sched : String → String → List String) (f b : String) : Option (Code V σ) :=
  (P.fns f).bind fun F => (F.graph.block b).bind fun B => (builtOf P f b).map fun built =>
    ⟨built.entries.map (·.instr), semOf I built.entries, sched f b, P.last F B⟩

/-- The specification of a block has been built from its layouts `src` and `tgt`, and the validator has accepted the schedule.
`block`, `interp`, `local'`, `final`, `analysable` are the hypotheses of C51, `gets` says that only variables are loaded that
the schedule has stored. -/
structure BlockAccepted {C : Type} (I : Interp Nat (Loc → C)) (instrs : List Ins) (split : Option Ins) (src tgt : List String)
    (junk : Bool) (ids : List String) : Prop where
  block : BlockOk instrs (substDuplicates src)
  interp : InterpOk I instrs
  local' : LocalOk I instrs
  final : ∀ v ∈ beforeSplit split tgt, ¬ Generated v
  accepted : ∃ built deps, buildSpec instrs split [] (substDuplicates src) tgt = some (built, deps) ∧
    check ⟨built.entries.map (·.instr), built.src, built.tgt, deps⟩ ids junk = true ∧
    ∀ env w, Analysable instrs built.positions built.unused (I.read (blockRun I instrs env w).1)
  swaps : ∀ s ∈ ids, classify s ≠ some (.swap 0)
  gets : ∀ pre s post v, ids = pre ++ s :: post → classify s = some (.get v) → ∃ t ∈ pre, classify t = some (.set v)

/-- A component has been compiled: there are layouts, and for every block that has one the schedule is accepted. -/
structure Accepted {C : Type} (I : Interp Nat (Loc → C)) (sched : String → List String) (F : Fn) (st : DState) : Prop where
  layouts : drive F.graph = .ok st
  blocks : ∀ B ∈ F.graph.blocks, ∀ src tgt, (B.id, src, tgt) ∈ st.specs →
    BlockAccepted I (F.instrs B.id) (F.split B.id) src tgt (F.graph.canJunk B.id) (sched B.id) ∧
    (substDuplicates src).Nodup ∧ ∀ v ∈ F.exitOuts B, v ∉ src

theorem built_ids_nodup {V σ : Type} (I : Interp V σ) (instrs : List Ins) (split : Option Ins) (initial final : List String)
    (hb : BlockOk instrs initial) (hi : InterpOk I instrs) (built : Built)
    (hbuild : buildSequence instrs split [] initial final = some built) (hfinal : ∀ v ∈ beforeSplit split final, ¬ Generated v)
    (env0 : String → V) (w0 : σ) : (built.entries.map (·.instr.id)).Nodup := by
  generalize hfin : (blockRun I instrs env0 w0).1 = fin at *
  unfold buildSequence at hbuild
  obtain ⟨st1, h1, hbuild⟩ := Option.bind_eq_some_iff.1 hbuild
  obtain ⟨st2, h2, rfl⟩ := Option.map_eq_some_iff.1 hbuild
  obtain ⟨val, hinv1⟩ := buildLoop_inv hb hi env0 w0 instrs 0 _ St.init st1 (by simp)
    (by simpa [blockRun] using inv_init I instrs (blockRun I instrs env0 w0).1 w0 (Seen instrs 0)) h1
  rw [hfin] at hinv1
  have hinv1' := hinv1.weaken (P' := fun _ => True) (Nat.le_refl _) (fun _ _ => trivial)
  obtain ⟨hinv, hpos⟩ := assignLoop_inv hb (addConstants (beforeSplit split final) []) (by
    intro oc hoc hlit
    rcases addConstants_mem _ _ _ hoc with hoc | ⟨x, hx, hx' | hx'⟩
    · simp at hoc
    · rw [hx'.2]
      refine ⟨by rw [← hx'.1]; exact hfinal x hx, ?_, fun ht => (isTag_proper hb ht).notBottom rfl⟩
      have hnl : ¬ IsLiteral "bottom" := by rw [← isConst_iff]; decide
      unfold Interp.read
      rw [if_neg hnl, if_pos rfl]
      rfl
    · rw [hx'.2.2]
      refine ⟨hfinal x hx, ?_, fun ht => (isTag_proper hb ht).notLit hx'.1⟩
      unfold Interp.read
      rw [if_pos hx'.1]) st1 st2 hinv1' h2
  simp only
  split
  · exact hinv.nodup.sublist (filter_sublist.map _)
  · rw [map_map]
    exact hinv.nodup.sublist (filter_sublist.map _)

theorem mem_of_lookup {A B : Type} [BEq A] [LawfulBEq A] {l : List (A × B)} {k : A} {v : B} (h : l.lookup k = some v) :
    (k, v) ∈ l := by
  obtain ⟨l₁, l₂, rfl, _⟩ := List.lookup_eq_some_iff.1 h
  simp

theorem semOf_entry {V σ : Type} (I : Interp V σ) {es : List Entry} (hn : (es.map (·.instr.id)).Nodup) :
    ∀ e ∈ es, semOf I es e.instr = e.sem I := by
  intro e he
  funext args w
  unfold semOf
  cases hf : es.find? (fun e' => e'.instr.id == e.instr.id) with
  | none =>
    have := find?_eq_none.1 hf e he
    simp at this
  | some e' =>
    have h1 := mem_of_find?_eq_some hf
    have h2 := find?_some hf
    simp only [beq_iff_eq] at h2
    rw [inj_on_of_nodup_map hn h1 he h2]

section
variable {C : Type} [Nonempty C] {P : Prog} {I : Interp Nat (Loc → C)} (hnum : ∀ n, I.num n = n) {sched : String → String → List String}

include hnum in
theorem compile_block {f : String} {F : Fn} (hF : P.fns f = some F) (wf : WellFormed F.graph) (one : OneJoin F.graph) {st : DState}
    (h : Accepted I (sched f) F st) {B : LBlock} (hB : B ∈ F.graph.blocks) {src tgt : List String}
    (hspec : (B.id, src, tgt) ∈ st.specs) : ∃ k, compile P I sched f B.id = some k ∧ k.last = P.last F B ∧
      BlockCompiled I (F.instrs B.id) (F.split B.id) src tgt (F.graph.canJunk B.id) k ∧ (k.tab.map (·.id)).Nodup ∧
      ∃ built, builtOf P f B.id = some built ∧
        buildSequence (F.instrs B.id) (F.split B.id) [] (substDuplicates src) tgt = some built := by
  obtain ⟨hacc, _, _⟩ := h.blocks B hB src tgt hspec
  obtain ⟨built, deps, hbuild, hcheck, hana⟩ := hacc.accepted
  have hBb : F.graph.block B.id = some B := by
    cases hc : F.graph.block B.id with
    | none =>
      have := find?_eq_none.1 hc B hB
      simp at this
    | some S' =>
      obtain ⟨h1, h2⟩ := block_some hc
      rw [same_id wf h1 hB h2]
  have hlk : st.specs.lookup B.id = some (src, tgt) := by
    have hn := (layouts_cover wf one h.layouts).2.1
    generalize st.specs = l at hn hspec
    induction l with
    | nil => simp at hspec
    | cons p l ih =>
      rw [map_cons, nodup_cons] at hn
      rcases mem_cons.1 hspec with rfl | hm
      · simp
      · have : B.id ≠ p.1 := fun e => hn.1 (by rw [← e]; exact mem_map.2 ⟨_, hm, rfl⟩)
        rw [lookup_cons, show (B.id == p.1) = false by simpa using this]
        exact ih hn.2 hm
  have hseq : buildSequence (F.instrs B.id) (F.split B.id) [] (substDuplicates src) tgt = some built := by
    unfold buildSpec at hbuild
    obtain ⟨b, hb1, hbuild⟩ := Option.bind_eq_some_iff.1 hbuild
    simp only [Option.bind_eq_some_iff, Option.map_eq_some_iff, Prod.mk.injEq] at hbuild
    obtain ⟨_, _, _, _, _, _, _, _, _, _, _, _, _, _, rfl, _⟩ := hbuild
    exact hb1
  have hids : (built.entries.map (·.instr.id)).Nodup :=
    built_ids_nodup I _ _ _ _ hacc.block hacc.interp built hseq hacc.final (fun _ => 0) (fun _ => Classical.arbitrary C)
  have hof : builtOf P f B.id = some built := by
    unfold builtOf
    rw [hF, Option.bind_some, h.layouts]
    simp only [Except.toOption, Option.bind_some]
    rw [hlk, Option.bind_some, hbuild]
    rfl
  refine ⟨⟨built.entries.map (·.instr), semOf I built.entries, sched f B.id, P.last F B⟩, ?_, rfl, ?_, ?_, built, hof, hseq⟩
  · unfold compile
    rw [hF, Option.bind_some, hBb, Option.bind_some, hof]
    rfl
  · exact block_compiled_partial I hnum _ _ _ _ hacc.block hacc.interp hacc.local' built deps hbuild hacc.final hana _
      (semOf_entry I hids) _ _ hcheck hacc.swaps hacc.gets _
  · rw [map_map]
    exact hids

variable {dest : Nat → Option (String × String)} (hok : ∀ f F, P.fns f = some F → FnOk P I dest f F)
  (hacc : ∀ f F, P.fns f = some F → ∃ st, Accepted I (sched f) F st)

include hnum hok hacc in
theorem accepted_compiled (f : String) (F : Fn) (hF : P.fns f = some F) : ∃ st, Compiled P I (compile P I sched) f F st := by
  obtain ⟨st, h⟩ := hacc f F hF
  have ok := hok f F hF
  refine ⟨st, h.layouts, ?_, fun B hB src tgt hs => (h.blocks B hB src tgt hs).2.1, fun B hB src tgt hs => (h.blocks B hB src tgt hs).2.2⟩
  intro B hB src tgt hs
  obtain ⟨k, h1, h2, h3, _, _⟩ := compile_block hnum hF ok.wf ok.one h hB hs
  exact ⟨k, h1, h2, h3⟩

include hnum hok hacc in
theorem compile_ids_nodup (f b : String) (k : Code Nat (Loc → C)) (hk : compile P I sched f b = some k) : (k.tab.map (·.id)).Nodup := by
  have hk0 := hk
  unfold compile at hk
  obtain ⟨F, hF, hk⟩ := Option.bind_eq_some_iff.1 hk
  obtain ⟨B, hB, hk⟩ := Option.bind_eq_some_iff.1 hk
  obtain ⟨built, hbuilt, hk⟩ := Option.map_eq_some_iff.1 hk
  unfold builtOf at hbuilt
  rw [hF, Option.bind_some] at hbuilt
  obtain ⟨st, hst, hbuilt⟩ := Option.bind_eq_some_iff.1 hbuilt
  obtain ⟨⟨src, tgt⟩, hl, hbuilt⟩ := Option.bind_eq_some_iff.1 hbuilt
  obtain ⟨st', h⟩ := hacc f F hF
  have ok := hok f F hF
  obtain ⟨hBm, rfl⟩ := block_some hB
  rw [h.layouts] at hst
  simp only [Except.toOption, Option.some.injEq] at hst
  subst hst
  obtain ⟨k', h1, _, _, h4, _⟩ := compile_block hnum hF ok.wf ok.one h hBm (mem_of_lookup hl)
  rw [hk0, Option.some.injEq] at h1
  rw [h1]
  exact h4

include hnum hok hacc in
/-- **C53 (partial), for the generated code.** Take a program whose components meet `FnOk`, generate the layouts of all its
components, build the specifications of all blocks from them, and let any scheduler find schedules that the validator accepts.
Then the machine that runs this code, from any stack and any content of the slots, executes the same blocks in the same
EVM states as the control flow graphs, and ends with the same operation on the same arguments in the same state. Missing: blocks
excluded by `Analysable` (C51), variables that are stored by one block and loaded by another. -/
theorem generated_code_runs_partial {F : Fn} (hF : P.fns P.main = some F) (env : String → Nat) (w : Loc → C) (slot : Var → Nat)
    (below : List Nat) {tr : List (String × String × (Loc → C))} {x : Config Nat (Loc → C) ⊕ Halted Nat (Loc → C)}
    (hr : Runs P I ⟨P.main, F.graph.start, env, [], w⟩ tr x) :
    ∃ y, MRuns 0 (compile P I sched) dest ⟨P.main, F.graph.start, below, slot, w⟩ tr y ∧ Agree x y := by
  have := compiled_program_runs hok (accepted_compiled hnum hok hacc) hF env w slot below hr
  rwa [hnum] at this

include hnum hok hacc in
/-- **C53 (partial), for the generated code**, the other direction. -/
theorem generated_code_only_runs_partial {F : Fn} (hF : P.fns P.main = some F) (env : String → Nat) (w : Loc → C)
    (slot : Var → Nat) (below : List Nat) {tr : List (String × String × (Loc → C))}
    {y : MConfig Nat (Loc → C) ⊕ Halted Nat (Loc → C)}
    (hr : MRuns 0 (compile P I sched) dest ⟨P.main, F.graph.start, below, slot, w⟩ tr y) :
    (∃ x, Runs P I ⟨P.main, F.graph.start, env, [], w⟩ tr x ∧ Agree x y) ∨
    ∃ tr' c', tr' <+: tr ∧ Runs P I ⟨P.main, F.graph.start, env, [], w⟩ tr' (.inl c') ∧ step P I c' = none :=
  compiled_program_only_runs hok (accepted_compiled hnum hok hacc) hF (compile_ids_nodup hnum hok hacc) env w slot below
    (by rwa [hnum])

end
end Grey.Program
