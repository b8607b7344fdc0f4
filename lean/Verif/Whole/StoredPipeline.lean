/-
C86 with variables that are kept in memory: the compiler with its scheduler and the loads and stores that the reparation writes.
-/
import Verif.Whole.Scheduled
import Verif.Whole.Stored
import Verif.Stored.Assigned
import Verif.Repair.Assembly
namespace Grey.Whole
open List Grey.Cfg Grey.Inline Grey.Lower Grey.Sfs Grey.Program Grey.SymExec Grey.Front Grey.Parser Grey.Stored Grey.Repair

/-! ### Model -/

/-- What the reparation chooses: the variables for which a store is inserted in a block and the dictionary `reachable` that says where
(src/reparation/insert_placeholders.py:266-272, src/greedy/greedy_info.py:98-113), the cells of the variables (colours and their constants,
src/reparation/tree_scan.py:119-154), and the arguments of phi functions that are copied at the end of a block (lines 156-200). -/
structure Choice where
  stores : String → String → List String
  reach : String → String → Reach
  cell : String → String → Option Nat
  regs : String → String → List (String × (Nat × Nat))
  dups : String → String → List (String × (Nat × Nat))

/-- The ids of a block with the inserted stores (src/reparation/insert_placeholders.py:266-272). -/
def placedIds (R : Choice) (sched : String → String → List String) (f b : String) : Option (List PId) :=
  (insertAll (R.stores f b) ((sched f b).map .id, R.reach f b)).map (·.1)

/-- What is written for a block (src/reparation/tree_scan.py:119-202). -/
def repairedOps (R : Choice) (sched : String → String → List String) (f b : String) : Option (List SOp) :=
  (placedIds R sched f b).bind fun g => emitBlock (R.cell f) g (R.regs f b) (R.dups f b)

/-- What is written for all blocks. -/
def writtenBy (R : Choice) (sched : String → String → List String) : Written where
  pids f b := (placedIds R sched f b).getD []
  regs := R.regs
  dups := R.dups
  ops f b := (repairedOps R sched f b).getD []

/-- The reparation of a component fails if a variable is not in `reachable` or has no colour. -/
def repairsFn (P : Prog) (R : Choice) (sched : String → String → List String) (f : String) : Bool :=
  match P.fns f with
  | none => true
  | some F => F.graph.blocks.all fun B => (repairedOps R sched f B.id).isSome

/-- From an object to its assembly (`analyze_single_cfg`, src/execution/main_execution.py:49-104), with the ids of the scheduler and the reparation
(src/reparation/repair_unreachable.py:33-66 and 142-166). Every exception makes the result `none`. Simplifications: what the reparation chooses is a parameter; components
without loads are written in the same way (in the code they are not repaired, and have no stores unless the scheduler has inserted stores that nobody reads). -/
def compileStored (names order : List String) (dec : String → String × Option (List String)) (main : String) (ch : Option String → Choices)
    (junk : Option String → Bool) (guide : String → String → Guide) (R : Choice) (O : Obj) : Option (List Output.Asm) :=
  (frontEnd names order O).bind fun r =>
    if (none :: r.1.map some).all fun c => (computed ch junk r.2.1 c).isSome then
      let P := programOf r.1 dec main ch junk r.2.1
      if (main :: r.1).all (acceptsFn P (scheduledIds P guide)) && (main :: r.1).all (repairsFn P R (scheduledIds P guide)) then
        assemble P r.1 (tagOf r.2.2) (writtenBy R (scheduledIds P guide)).sched (allBlocks P (main :: r.1))
      else none
    else none

/-! ### Specification -/

/-- What the compiler relies on without checking it, as in `Unensured`, and about the variables in memory: the places `L` are right, every load and store is right
where it is written (C29, C31, C32), and the cells that are written are listed. -/
structure UnensuredStored {C : Type} (P : Prog) (I : Interp Nat (Loc → C)) (L : Places) (W : Written) : Prop where
  one : ∀ f F, P.fns f = some F → Layout.OneJoin F.graph
  order : ∀ f F, P.fns f = some F → InOrder F.graph
  copies : ∀ f F, P.fns f = some F → ∀ st, Layout.drive F.graph = .ok st → ∀ B ∈ F.graph.blocks, ∀ src tgt, (B.id, src, tgt) ∈ st.specs →
    (Layout.substDuplicates src).Nodup
  deps : ∀ f F, P.fns f = some F → ∀ st, Layout.drive F.graph = .ok st → ∀ B ∈ F.graph.blocks, ∀ src tgt, (B.id, src, tgt) ∈ st.specs →
    ∀ built deps, buildSpec (F.instrs B.id) (F.split B.id) [] (Layout.substDuplicates src) tgt = some (built, deps) →
    ∀ env w, Sfs.Analysable (F.instrs B.id) built.positions built.unused (I.read (blockRun I (F.instrs B.id) env w).1)
  terminal : ∀ f F, P.fns f = some F → ∀ B ∈ F.graph.blocks, B.jumpType = "terminal" → W.sched f B.id = [] → B.phis = [] ∧ F.instrs B.id = []
  places : PlacesOk P L
  flows : ∀ f F, P.fns f = some F → ∀ st, Layout.drive F.graph = .ok st → ∀ B ∈ F.graph.blocks, ∀ src tgt, (B.id, src, tgt) ∈ st.specs →
    ∀ built deps, buildSpec (F.instrs B.id) (F.split B.id) [] (Layout.substDuplicates src) tgt = some (built, deps) →
    ∃ names K, flow (built.entries.map (·.instr)) (W.ops f B.id) (built.src, unassigned (F.instrs B.id) (L.before f B.id)) = some (names, K) ∧
      ∀ p ∈ L.after f B.id, p ∈ K ∧ ¬ Generated p.1 ∧ ¬ Padding p.1
  stores : ∀ f F, P.fns f = some F → ∀ B ∈ F.graph.blocks, ∀ v a, SOp.store v a ∈ W.ops f B.id → a ∈ L.writes f ∧ ¬ Generated v ∧ ¬ Padding v

/-! ### Proofs -/

theorem execIds_classified {tab : List UInstr} : ∀ {ids st st' : List String}, execIds tab ids st = some st' → ∀ s ∈ ids, classify s ≠ none
  | [], _, _, _ => fun s hs => by cases hs
  | s :: ids, st, st', h => by
    rw [execIds] at h
    obtain ⟨st1, h1, h2⟩ := Option.bind_eq_some_iff.1 h
    intro t ht
    rcases mem_cons.1 ht with rfl | ht
    · unfold execId at h1
      obtain ⟨o, ho, -⟩ := Option.bind_eq_some_iff.1 h1
      rw [ho]
      exact fun h => by cases h
    · exact execIds_classified h2 t ht

theorem check_classified {spec : Spec} {ids : List String} {junk : Bool} (h : check spec ids junk = true) : ∀ s ∈ ids, classify s ≠ none := by
  unfold check at h
  cases e : execIds spec.userInstrs ids spec.src with
  | none => rw [e] at h; cases h
  | some st => exact execIds_classified e

theorem not_prefix_of_head {s : String} {c : Char} {l : List Char} (h : s.toList.head? ≠ some c) : (c :: l).isPrefixOf s.toList = false := by
  cases e : s.toList with
  | nil => rfl
  | cons d m =>
    rw [e] at h
    have : (c == d) = false := by
      simp only [head?_cons, ne_eq, Option.some.injEq] at h
      simpa using Ne.symm h
    simp [isPrefixOf, this]

theorem vget_of_head {s : String} (h : s.toList.head? ≠ some 'V') : vgetOf s = none ∧ vsetOf s = none := by
  unfold vgetOf vsetOf
  rw [show "VGET".toList = 'V' :: "GET".toList from rfl, show "VSET".toList = 'V' :: "SET".toList from rfl, not_prefix_of_head h, not_prefix_of_head h]
  exact ⟨rfl, rfl⟩

theorem vget_text (v : String) : ("VGET(" ++ v ++ ")").toList = 'V' :: 'G' :: 'E' :: 'T' :: '(' :: (v.toList ++ [')']) := by
  rw [String.toList_append, String.toList_append]; rfl

theorem vset_text (v : String) : ("VSET(" ++ v ++ ")").toList = 'V' :: 'S' :: 'E' :: 'T' :: '(' :: (v.toList ++ [')']) := by
  rw [String.toList_append, String.toList_append]; rfl

theorem vgetOf_vget (v : String) : vgetOf ("VGET(" ++ v ++ ")") = some v ∧ vsetOf ("VGET(" ++ v ++ ")") = none := by
  unfold vgetOf vsetOf
  rw [vget_text]
  constructor
  · rw [if_pos (by rfl)]
    simp
  · rw [if_neg (by intro h; cases h)]

theorem vgetOf_vset (v : String) : vgetOf ("VSET(" ++ v ++ ")") = none ∧ vsetOf ("VSET(" ++ v ++ ")") = some v := by
  unfold vgetOf vsetOf
  rw [vset_text]
  constructor
  · rw [if_neg (by intro h; cases h)]
  · rw [if_pos (by rfl)]
    simp

/-- The name of a stored variable that contains `SWAP` or `DUP` makes the check fail. -/
theorem classify_vget_cases (v : String) : classify ("VGET(" ++ v ++ ")") = some (.get v) ∨ classify ("VGET(" ++ v ++ ")") = none := by
  by_cases h1 : "SWAP".toList <:+: ("VGET(" ++ v ++ ")").toList
  · right
    unfold classify
    simp only
    rw [if_neg (by intro e; have := congrArg String.toList e; rw [vget_text] at this; cases this), if_pos (by rwa [infixOf_iff]), vget_text]
    rfl
  · by_cases h2 : "DUP".toList <:+: ("VGET(" ++ v ++ ")").toList
    · right
      unfold classify
      simp only
      rw [if_neg (by intro e; have := congrArg String.toList e; rw [vget_text] at this; cases this), if_neg (by rwa [infixOf_iff]), if_pos (by rwa [infixOf_iff]), vget_text]
      rfl
    · exact Or.inl (classify_vget v h1 h2)

theorem classify_vset_cases (v : String) : classify ("VSET(" ++ v ++ ")") = some (.set v) ∨ classify ("VSET(" ++ v ++ ")") = none := by
  by_cases h1 : "SWAP".toList <:+: ("VSET(" ++ v ++ ")").toList
  · right
    unfold classify
    simp only
    rw [if_neg (by intro e; have := congrArg String.toList e; rw [vset_text] at this; cases this), if_pos (by rwa [infixOf_iff]), vset_text]
    rfl
  · by_cases h2 : "DUP".toList <:+: ("VSET(" ++ v ++ ")").toList
    · right
      unfold classify
      simp only
      rw [if_neg (by intro e; have := congrArg String.toList e; rw [vset_text] at this; cases this), if_neg (by rwa [infixOf_iff]), if_pos (by rwa [infixOf_iff]), vset_text]
      rfl
    · exact Or.inl (classify_vset v h1 h2)

/-- What the scheduler returns is read in the same way by the check and by the reparation, and `DUP` and `SWAP` are within reach. -/
theorem scheduled_stored {tab : List UInstr} (ht : ∀ u ∈ tab, PlainId u.id) {s : String} (hs : Greedy.ScheduledId tab 16 s) (hc : classify s ≠ none) :
    ((∀ v, vgetOf s = some v ↔ classify s = some (.get v)) ∧ ∀ v, vsetOf s = some v ↔ classify s = some (.set v)) ∧
    (∀ n, classify s = some (.dup n) → n ≤ 16 ∧ s = "DUP" ++ toString n) ∧ ∀ n, classify s = some (.swap n) → 0 < n ∧ n ≤ 16 ∧ s = "SWAP" ++ toString n := by
  have hpop : classify "POP" = some .pop := by decide +kernel
  cases hs with
  | pop =>
    obtain ⟨e1, e2⟩ := vget_of_head (s := "POP") (by decide)
    rw [hpop, e1, e2]
    simp
  | swap k h1 h2 =>
    obtain ⟨e1, e2⟩ := vget_of_head (s := "SWAP" ++ toString k) (by rw [String.toList_append]; exact (by simp : ('S' :: _ : List Char).head? ≠ some 'V'))
    rw [classify_swap, e1, e2]
    refine ⟨by simp, by simp, ?_⟩
    intro n e
    cases e
    exact ⟨h1, h2, rfl⟩
  | dup k h1 h2 =>
    obtain ⟨e1, e2⟩ := vget_of_head (s := "DUP" ++ toString k) (by rw [String.toList_append]; exact (by simp : ('D' :: _ : List Char).head? ≠ some 'V'))
    rw [classify_dup, e1, e2]
    refine ⟨by simp, ?_, by simp⟩
    intro n e
    cases e
    exact ⟨h2, rfl⟩
  | vget v =>
    obtain ⟨e1, e2⟩ := vgetOf_vget v
    rw [(classify_vget_cases v).resolve_right hc, e1, e2]
    simp
  | vset v =>
    obtain ⟨e1, e2⟩ := vgetOf_vset v
    rw [(classify_vset_cases v).resolve_right hc, e1, e2]
    simp
  | op u h =>
    obtain ⟨e1, e2⟩ := vget_of_head (ht u h).head
    rw [(ht u h).instr, e1, e2]
    simp

/-- The ids that are written as they are come from the schedule. -/
theorem id_mem_emit (cell : String → Option Nat) {s : String} : ∀ (pids : List PId) (ops : List SOp), emitIds cell pids = some ops → SOp.id s ∈ ops → s ∈ originals pids := by
  intro pids
  induction pids with
  | nil =>
    intro ops h hm
    simp only [emitIds, Option.some.injEq] at h
    subst h
    cases hm
  | cons p pids ih =>
    intro ops h hm
    cases p with
    | id t =>
      rw [emitIds] at h
      rw [originals]
      split at h
      · obtain ⟨a, -, h⟩ := Option.bind_eq_some_iff.1 h
        obtain ⟨r, hr, rfl⟩ := Option.map_eq_some_iff.1 h
        exact mem_cons_of_mem _ (ih r hr (by simpa using hm))
      · split at h
        · obtain ⟨a, -, h⟩ := Option.bind_eq_some_iff.1 h
          obtain ⟨r, hr, rfl⟩ := Option.map_eq_some_iff.1 h
          exact mem_cons_of_mem _ (ih r hr (by simpa using hm))
        · obtain ⟨r, hr, rfl⟩ := Option.map_eq_some_iff.1 h
          rcases mem_cons.1 hm with h | h
          · cases h
            exact mem_cons_self
          · exact mem_cons_of_mem _ (ih r hr h)
    | dupSet w d =>
      rw [emitIds] at h
      rw [originals]
      obtain ⟨a, -, h⟩ := Option.bind_eq_some_iff.1 h
      obtain ⟨r, hr, rfl⟩ := Option.map_eq_some_iff.1 h
      exact ih r hr (by simpa using hm)

theorem id_mem_block {cell : String → Option Nat} {pids : List PId} {regs dups : List (String × (Nat × Nat))} {ops : List SOp} (h : emitBlock cell pids regs dups = some ops) {s : String}
    (hm : SOp.id s ∈ ops) : s ∈ originals pids := by
  unfold emitBlock at h
  obtain ⟨r, hr, rfl⟩ := Option.map_eq_some_iff.1 h
  rcases mem_append.1 hm with hm | hm
  · exact id_mem_emit cell _ _ hr hm
  · exfalso
    unfold emitPhis at hm
    simp only [mem_append, mem_map, mem_flatten] at hm
    rcases hm with (⟨p, -, e⟩ | ⟨p, -, e⟩) | ⟨l, ⟨p, -, rfl⟩, hm⟩
    · cases e
    · cases e
    · simp at hm

/-- What is written for a block, if nothing fails. -/
theorem repaired_block {P : Prog} {R : Choice} {sched : String → String → List String} {f : String} {F : Fn} (hF : P.fns f = some F) (h : repairsFn P R sched f = true)
    {B : Layout.LBlock} (hB : B ∈ F.graph.blocks) : emitBlock (R.cell f) ((writtenBy R sched).pids f B.id) (R.regs f B.id) (R.dups f B.id) = some ((writtenBy R sched).ops f B.id) ∧
      originals ((writtenBy R sched).pids f B.id) = sched f B.id := by
  unfold repairsFn at h
  rw [hF] at h
  obtain ⟨ops, ho⟩ := Option.isSome_iff_exists.1 (all_eq_true.1 h B hB)
  obtain ⟨g, hg, he⟩ := Option.bind_eq_some_iff.1 ho
  refine ⟨?_, ?_⟩
  · show emitBlock _ ((placedIds R sched f B.id).getD []) _ _ = some ((repairedOps R sched f B.id).getD [])
    rw [ho, hg]
    exact he
  · show originals ((placedIds R sched f B.id).getD []) = _
    rw [hg]
    unfold placedIds at hg
    obtain ⟨r, hr, rfl⟩ := Option.map_eq_some_iff.1 hg
    exact (RepairAll.insertAll_orig _ _ _ hr).trans (originals_ids _)

/-- **C86, with variables in memory.** If the compiler writes an assembly for an object with the ids that its scheduler returns and the loads and stores that the reparation
adds to them, then the assembly does what the object does, up to what is in the cells, provided that what the compiler does not ensure is right (`UnensuredStored`), and from states
from which the object does not get stuck and the program keeps away from the cells.

Partial: what the compiler does not ensure is assumed; the places that the reparation chooses are not always right (C29, C31, C32). -/
theorem stored_like_source_partial {C : Type} [Nonempty C] {names order : List String} {O : Obj} {dec : String → String × Option (List String)}
    {I : Interp Nat (Loc → C)} {arity : String → Nat} {val : Nat → Nat} {main : String} (K : Compilable names O) (ho : CalleesFirst O order)
    (hE : Ending names O) (hI : OpsOk names dec I O) (hm : main ∉ names ++ Lower.haltOps) (he : Emittable dec I arity names O)
    (hval : TagMeaning I val) (hnum : ∀ n, I.num n = n) (hmem : MemoryOk I arity) (hevm : EvmLike names dec I O) {ch : Option String → Choices} {junk : Option String → Bool}
    {guide : String → String → Guide} {R : Choice} {code : List Output.Asm} (hc : compileStored names order dec main ch junk guide R O = some code) :
    ∃ names' O' T, frontEnd names order O = some (names', O', T) ∧ ∀ L,
      UnensuredStored (programOf names' dec main ch junk O') I L (writtenBy R (scheduledIds (programOf names' dec main ch junk O') guide)) →
      ∀ w, ¬ Wrong (run (meaning I dec) (zeros I) O (w, none)) none →
        (∀ tr c, Program.Runs (programOf names' dec main ch junk O') I (entry I main O' w) tr (.inl c) →
          KeepsAway (programOf names' dec main ch junk O') I L (writtenBy R (scheduledIds (programOf names' dec main ch junk O') guide)) c) →
        SameBehaviour I arity code L.cell (fun h => ∃ s, Ends (run (meaning I dec) (zeros I) O (w, none)) none s ∧ haltedOf s = h) w := by
  obtain ⟨names', O', T, h1, -, h2, -⟩ := whole_compiler_partial K ho hE hI hm he hval hnum
  obtain ⟨names2, O2, T2, g1, h3⟩ := whole_compiler_stored_partial K ho hE hI hm he hval hnum hmem
  rw [h1] at g1
  cases g1
  obtain ⟨-, hlive⟩ := front_end_analyses K ho hE hI hm h1
  refine ⟨names', O', T, h1, fun L hu => ?_⟩
  unfold compileStored at hc
  rw [h1, Option.bind_some] at hc
  split at hc
  case isFalse => cases hc
  case isTrue hcomp =>
  dsimp only at hc
  split at hc
  case isFalse => cases hc
  case isTrue hacc =>
  rw [Bool.and_eq_true, all_eq_true, all_eq_true] at hacc
  obtain ⟨hacc, hrep⟩ := hacc
  rw [all_eq_true] at hcomp
  generalize hsch : scheduledIds (programOf names' dec main ch junk O') guide = sched at *
  have hA : AnalysedBy ch junk O' fun c => (computed ch junk O' c).getD noAnalysis := by
    intro comp C' hC'
    have hmem : comp ∈ (none :: names'.map some : List (Option String)) := by
      cases comp with
      | none => exact mem_cons_self
      | some g => exact mem_cons_of_mem _ (mem_map.2 ⟨g, (h2 g).2 ⟨C', hC'⟩, rfl⟩)
    obtain ⟨a, ha'⟩ := Option.isSome_iff_exists.1 (hcomp comp hmem)
    have ha : computed ch junk O' comp = some a := ha'
    unfold computed at ha'
    rw [hC', Option.bind_some] at ha'
    rw [ha']
    beta_reduce
    rw [ha]
    rfl
  have hfns : ∀ f F, (programOf names' dec main ch junk O').fns f = some F → f ∈ main :: names' := by
    intro f F hF
    by_cases hf : f = main
    · exact mem_cons.2 (Or.inl hf)
    · have hF' : (if f = main then _ else (O'.fns f).map (toFn names' dec false _)) = some F := hF
      rw [if_neg hf] at hF'
      obtain ⟨C', hC', -⟩ := Option.map_eq_some_iff.1 hF'
      exact mem_cons_of_mem _ ((h2 f).2 ⟨C', hC'⟩)
  have hfuel : ∀ f F, (programOf names' dec main ch junk O').fns f = some F →
      F.graph.blocks.length ≤ allBlocks (programOf names' dec main ch junk O') (main :: names') := by
    intro f F hF
    have := le_sum (g := fun f => (((programOf names' dec main ch junk O').fns f).map fun F => F.graph.blocks.length).getD 0) (hfns f F hF)
    rwa [hF] at this
  have key : ∀ f F, (programOf names' dec main ch junk O').fns f = some F → Placeable F.graph ∧ ∃ st, Layout.drive F.graph = .ok st ∧
      ∀ B ∈ F.graph.blocks, ∀ src tgt, (B.id, src, tgt) ∈ st.specs →
        BlockStored I L f B.id (F.instrs B.id) (F.split B.id) src tgt (F.graph.canJunk B.id) ((writtenBy R sched).pids f B.id) ((writtenBy R sched).regs f B.id)
          ((writtenBy R sched).dups f B.id) ((writtenBy R sched).ops f B.id) ∧ (Layout.substDuplicates src).Nodup ∧ ∀ v ∈ F.exitOuts B, v ∉ src := by
    intro f F hF
    obtain ⟨O1, p1, p2, p3, p4, p5, p6⟩ := preprocessed_lowerable K ho
    obtain ⟨O2, T2, f2t, H, g1, hv⟩ := lower_deco p4
    have hm' : main ∉ (names.filter fun f => (O1.fns f).isSome) ++ Lower.haltOps := by
      intro h2
      rcases mem_append.1 h2 with h3 | h3
      · exact hm (mem_append.2 (Or.inl (mem_filter.1 h3).1))
      · exact hm (mem_append.2 (Or.inr h3))
    have hr := ready_of_inv hv (ops_after p5 hI) hm'
    have g : frontEnd names order O = some (names.filter fun f => (O1.fns f).isSome, O2, T2) := by unfold frontEnd; rw [p1, Option.bind_some, g1]; rfl
    have hknown := fun B hB => program_known K ho hE hI hm hevm h1 (A := fun c => (computed ch junk O' c).getD noAnalysis) hF (B := B) hB
    rw [h1] at g
    cases g
    obtain ⟨hok, hl⟩ := fn_laid hv hr (hv.fine (p6 hE)) (emittable_after p5 hI he) hval hA hF (hu.one f F hF)
    obtain ⟨st, hst, hblocks⟩ := acceptsFn_true hF (hacc f (hfns f F hF))
    have hnd := (Layout.layouts_cover hok.wf (hu.one f F hF) hst).2.1
    have hemit := fun B hB => repaired_block hF (hrep f (hfns f F hF)) (B := B) hB
    have hids : ∀ B ∈ F.graph.blocks, ∀ s ∈ sched f B.id,
        ((∀ v, vgetOf s = some v ↔ classify s = some (.get v)) ∧ ∀ v, vsetOf s = some v ↔ classify s = some (.set v)) ∧
        (∀ n, classify s = some (.dup n) → n ≤ 16 ∧ s = "DUP" ++ toString n) ∧ ∀ n, classify s = some (.swap n) → 0 < n ∧ n ≤ 16 ∧ s = "SWAP" ++ toString n := by
      intro B hB s hs
      obtain ⟨lay, built, deps, -, -, hchk⟩ := hblocks B hB
      rcases scheduledIds_from (guide := guide) hF (hknown B hB) with e | ⟨tab, ht, hs'⟩
      · have e' : sched f B.id = [] := by rw [← hsch]; exact e
        rw [e'] at hs
        cases hs
      · exact scheduled_stored ht (hs' s (by rw [← hsch] at hs; exact hs)) (check_classified hchk s hs)
    have hacc' : StoredAccepted F st L (writtenBy R sched) f := by
      intro B hB src tgt hspec
      obtain ⟨lay, built, deps, k1, k2, k3⟩ := hblocks B hB
      rw [lookup_mem hnd hspec] at k1
      cases k1
      obtain ⟨nm, K', k4, k5⟩ := hu.flows f F hF st hst B hB src tgt hspec built deps k2
      obtain ⟨k6, k7⟩ := hemit B hB
      refine ⟨⟨_, k6⟩, ?_, built, deps, k2, by rw [k7]; exact k3, nm, K', k4, fun p hp => (k5 p hp).1⟩
      rw [k7]
      exact fun s hs => (hids B hB s hs).1
    obtain ⟨hplace, hens⟩ := fn_ensured hv hr (hv.fine (p6 hE)) (emittable_after p5 hI he) hval (evmLike_after p5 hevm) hA hF (hu.one f F hF) (hu.order f F hF) hst
      (fun B hB => by obtain ⟨lay, _, _, h1, -⟩ := hblocks B hB; exact ⟨lay, h1⟩) (stored_on_stack_assigned hu.places hF hl hst hacc')
      (assemble_entry hc (mem_cons.1 (hfns f F hF)) hF)
    refine ⟨hplace, st, hst, ?_⟩
    intro B hB src tgt hspec
    obtain ⟨lay, built, deps, k1, k2, k3⟩ := hblocks B hB
    rw [lookup_mem hnd hspec] at k1
    cases k1
    obtain ⟨m1, m2, m3, m4, u3⟩ := hens B hB src tgt hspec
    obtain ⟨k6, k7⟩ := hemit B hB
    refine ⟨⟨m1, m2, m3, m4, ⟨_, k6⟩, ⟨built, deps, k2, by rw [k7]; exact k3, hu.deps f F hF st hst B hB src tgt hspec built deps k2,
      hu.flows f F hF st hst B hB src tgt hspec built deps k2⟩, hu.stores f F hF B hB, ?_, ?_, ?_⟩, hu.copies f F hF st hst B hB src tgt hspec, u3⟩
    · intro s hs
      have := id_mem_block k6 hs
      rw [k7] at this
      exact (hids B hB s this).2.1
    · intro s hs
      have := id_mem_block k6 hs
      rw [k7] at this
      exact (hids B hB s this).2.2
    · rw [k7]
      exact fun s hs => (hids B hB s hs).1
  obtain ⟨code', hcode, hlike⟩ := h3 _ L (writtenBy R sched) _ ⟨hu.one, hlive ch junk _ hA, fun f F hF => (key f F hF).1, hu.places, fun f F hF => (key f F hF).2,
    hu.terminal⟩ hfuel
  have : assemble (programOf names' dec main ch junk O') names' (tagOf T) (writtenBy R sched).sched
    (allBlocks (programOf names' dec main ch junk O') (main :: names')) = some code' := hcode
  rw [hc] at this
  cases this
  exact hlike

/-- **C86, with variables in memory, documents.** As `stored_like_source_partial`, from the document that the compiler reads. -/
theorem stored_like_document_partial {C : Type} [Nonempty C] {J : JObj} {order : List String} {dec : String → String × Option (List String)} {I : Interp Nat (Loc → C)}
    {arity : String → Nat} {val : Nat → Nat} {main : String} (hJ : DocOk J) (hu : Underscores J) :
    ∃ O, parseObject J = some O ∧ (Compilable (J.functions.map (·.1)) O → CalleesFirst O order → Ending (J.functions.map (·.1)) O →
      OpsOk (J.functions.map (·.1)) dec I O → main ∉ J.functions.map (·.1) ++ Lower.haltOps → Emittable dec I arity (J.functions.map (·.1)) O →
      TagMeaning I val → (∀ n, I.num n = n) → MemoryOk I arity → EvmLike (J.functions.map (·.1)) dec I O →
      ∀ ch junk guide R code, compileStored (J.functions.map (·.1)) order dec main ch junk guide R O = some code →
        ∃ names' O' T, frontEnd (J.functions.map (·.1)) order O = some (names', O', T) ∧ ∀ L,
          UnensuredStored (programOf names' dec main ch junk O') I L (writtenBy R (scheduledIds (programOf names' dec main ch junk O') guide)) →
          ∀ w, ¬ Wrong (jrun (meaning I dec) (zeros I) J (w, none)) none →
            (∀ tr c, Program.Runs (programOf names' dec main ch junk O') I (entry I main O' w) tr (.inl c) →
              KeepsAway (programOf names' dec main ch junk O') I L (writtenBy R (scheduledIds (programOf names' dec main ch junk O') guide)) c) →
            SameBehaviour I arity code L.cell (fun h => ∃ s, Ends (jrun (meaning I dec) (zeros I) J (w, none)) none s ∧ haltedOf s = h) w) := by
  obtain ⟨O, hO, hs⟩ := parsed_runs_partial hJ hu
  refine ⟨O, hO, ?_⟩
  intro K ho hE hI hm he hval hnum hmem hevm ch junk guide R code hc
  obtain ⟨names', O', T, h1, h2⟩ := stored_like_source_partial K ho hE hI hm he hval hnum hmem hevm hc
  refine ⟨names', O', T, h1, ?_⟩
  intro L hun w hw haway
  have hsame := hs _ _ (meaning I dec) (zeros I) (w, none)
  have h5 := h2 L hun w (fun h => hw (hsame.2.2 h)) haway
  have he : (fun h => ∃ s, Ends (run (meaning I dec) (zeros I) O (w, none)) none s ∧ haltedOf s = h) =
      fun h => ∃ s, Ends (jrun (meaning I dec) (zeros I) J (w, none)) none s ∧ haltedOf s = h := by
    funext h
    exact propext (exists_congr fun s => and_congr_left' (hsame.1 s).symm)
  rw [he] at h5
  exact h5

end Grey.Whole
