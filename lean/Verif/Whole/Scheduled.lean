/-
C86 with the ids that the scheduler returns.
-/
import Verif.Whole.Pipeline
import Verif.Greedy.From
import Verif.Sfs.BuildIds
namespace Grey.Whole
open List Grey.Cfg Grey.Inline Grey.Lower Grey.Sfs Grey.Program Grey.SymExec Grey.Front Grey.Parser

/-! ### Model -/

/-- What guides the scheduler in a block: the numbers of rounds that it may need, and the questions and plans of its two tries. -/
structure Guide where
  rounds : Nat
  heur : Greedy.Heur
  heur' : Greedy.Heur
  plan : Greedy.Plan
  plan' : Greedy.Plan

/-- `greedy_standalone` (src/greedy/greedy_previous_param.py:1981-2000): no ids if there is an exception. -/
def greedyStandalone (tab : List UInstr) (src tgt : List String) (deps : List (String × String)) (reach : Nat) (junk : Bool) (g : Guide) : List String :=
  ((Greedy.greedy tab src tgt deps reach g.rounds junk g.heur g.heur' g.plan g.plan').map (·.map Prod.snd)).getD []

/-- The ids that `cfg_block_spec_ids` (src/greedy/ids_from_spec.py:29-53) gets from the scheduler for the block `b` of the component `f`, with
`MAX_STACK_DEPTH` 16 (src/global_params/constants.py:1); none if there is no specification, which is an exception before. -/
def scheduledIds (P : Prog) (guide : String → String → Guide) (f b : String) : List String :=
  match P.fns f with
  | none => []
  | some F =>
    match Layout.drive F.graph with
    | .error _ => []
    | .ok st =>
      match st.specs.lookup b with
      | none => []
      | some lay =>
        match buildSpec (F.instrs b) (F.split b) [] (Layout.substDuplicates lay.1) lay.2 with
        | none => []
        | some (built, deps) => greedyStandalone (built.entries.map (·.instr)) built.src built.tgt deps 16 (F.graph.canJunk b) (guide f b)

/-- `id_instr.startswith("VGET")` and `id_instr.startswith("VSET")` (src/greedy/greedy_info.py:62 and 69). -/
def isStored (s : String) : Bool := "VGET".toList.isPrefixOf s.toList || "VSET".toList.isPrefixOf s.toList

/-- No variable of the component is stored, so that nothing has to be repaired (src/greedy/ids_from_spec.py:61-71). -/
def storesNothing (P : Prog) (sched : String → String → List String) (f : String) : Bool :=
  match P.fns f with
  | none => true
  | some F => F.graph.blocks.all fun B => (sched f B.id).all fun s => !isStored s

/-- `compileObject` with the ids that the scheduler returns. Simplification: the result is `none` if variables have to be stored (the schedules would
have to be repaired, src/reparation/repair_unreachable.py). -/
def compileScheduled (names order : List String) (dec : String → String × Option (List String)) (main : String) (ch : Option String → Choices)
    (junk : Option String → Bool) (guide : String → String → Guide) (O : Obj) : Option (List Output.Asm) :=
  (frontEnd names order O).bind fun r =>
    let P := programOf r.1 dec main ch junk r.2.1
    if (main :: r.1).all (storesNothing P (scheduledIds P guide)) then compileObject names order dec main ch junk (scheduledIds P guide) O else none

/-! ### Proofs -/

theorem prefix_of_isPrefixOf {p s r : String} (h : s = p ++ r) : p.toList.isPrefixOf s.toList = true := by
  rw [h, String.toList_append]
  exact isPrefixOf_iff_prefix.2 (prefix_append _ _)

/-- What the scheduler returns can be written into the assembly if nothing is stored. -/
theorem scheduled_plain {tab : List UInstr} {ids : List String} (hs : ∀ s ∈ ids, Greedy.ScheduledId tab 16 s) (ht : ∀ u ∈ tab, PlainId u.id)
    (hn : ∀ s ∈ ids, isStored s = false) : PlainIds ids ∧ ∀ s ∈ ids, classify s ≠ some (.swap 0) := by
  have hpop : classify "POP" = some .pop := by decide +kernel
  have hget : ∀ v, ("VGET(" ++ v ++ ")") ∉ ids := fun v hv => by
    have := hn _ hv
    unfold isStored at this
    rw [prefix_of_isPrefixOf (p := "VGET") (r := "(" ++ v ++ ")") (by simp [String.ext_iff])] at this
    cases this
  have hset : ∀ v, ("VSET(" ++ v ++ ")") ∉ ids := fun v hv => by
    have := hn _ hv
    unfold isStored at this
    rw [prefix_of_isPrefixOf (p := "VSET") (r := "(" ++ v ++ ")") (by simp [String.ext_iff]), Bool.or_true] at this
    cases this
  refine ⟨⟨?_, ?_, ?_, ?_⟩, ?_⟩
  · intro s hm n hc
    cases hs s hm with
    | pop => rw [hpop] at hc; cases hc
    | swap k h1 h2 => rw [classify_swap] at hc; cases hc
    | dup k h1 h2 => rw [classify_dup] at hc; cases hc; exact ⟨h2, rfl⟩
    | vget v => exact absurd hm (hget v)
    | vset v => exact absurd hm (hset v)
    | op u h => rw [(ht u h).instr] at hc; cases hc
  · intro s hm n hc
    cases hs s hm with
    | pop => rw [hpop] at hc; cases hc
    | swap k h1 h2 => rw [classify_swap] at hc; cases hc; exact ⟨h2, rfl⟩
    | dup k h1 h2 => rw [classify_dup] at hc; cases hc
    | vget v => exact absurd hm (hget v)
    | vset v => exact absurd hm (hset v)
    | op u h => rw [(ht u h).instr] at hc; cases hc
  · intro s hm v hc
    cases hs s hm with
    | pop => rw [hpop] at hc; cases hc
    | swap k h1 h2 => rw [classify_swap] at hc; cases hc
    | dup k h1 h2 => rw [classify_dup] at hc; cases hc
    | vget v => exact absurd hm (hget v)
    | vset v => exact absurd hm (hset v)
    | op u h => rw [(ht u h).instr] at hc; cases hc
  · intro s hm v hc
    cases hs s hm with
    | pop => rw [hpop] at hc; cases hc
    | swap k h1 h2 => rw [classify_swap] at hc; cases hc
    | dup k h1 h2 => rw [classify_dup] at hc; cases hc
    | vget v => exact absurd hm (hget v)
    | vset v => exact absurd hm (hset v)
    | op u h => rw [(ht u h).instr] at hc; cases hc
  · intro s hm hc
    cases hs s hm with
    | pop => rw [hpop] at hc; cases hc
    | swap k h1 h2 => rw [classify_swap] at hc; cases hc; omega
    | dup k h1 h2 => rw [classify_dup] at hc; cases hc
    | vget v => exact absurd hm (hget v)
    | vset v => exact absurd hm (hset v)
    | op u h => rw [(ht u h).instr] at hc; cases hc

/-- The instructions of the blocks after the front end are known operations. -/
theorem program_known {C : Type} {names order : List String} {O : Obj} {dec : String → String × Option (List String)}
    {I : Interp Nat (Loc → C)} {main : String} (K : Compilable names O) (ho : CalleesFirst O order)
    (hE : Ending names O) (hI : OpsOk names dec I O) (hm : main ∉ names ++ Lower.haltOps) (hevm : EvmLike names dec I O)
    {names' : List String} {O' : Obj} {T : List (String × Nat)} (h1 : frontEnd names order O = some (names', O', T)) {A : Option String → Analysis} {f : String} {F : Fn}
    (hF : (toProg names' dec main A O').fns f = some F) {B : Layout.LBlock} (hB : B ∈ F.graph.blocks) : ∀ i ∈ F.instrs B.id, KnownIns i := by
  obtain ⟨O1, p1, p2, p3, p4, p5, p6⟩ := preprocessed_lowerable K ho
  obtain ⟨O2, T2, f2t, H, g1, hv⟩ := lower_deco p4
  have hm' : main ∉ (names.filter fun f => (O1.fns f).isSome) ++ Lower.haltOps := by
    intro h2
    rcases mem_append.1 h2 with h3 | h3
    · exact hm (mem_append.2 (Or.inl (mem_filter.1 h3).1))
    · exact hm (mem_append.2 (Or.inr h3))
  have hr := ready_of_inv hv (ops_after p5 hI) hm'
  have g : frontEnd names order O = some (names.filter fun f => (O1.fns f).isSome, O2, T2) := by unfold frontEnd; rw [p1, Option.bind_some, g1]; rfl
  rw [h1] at g
  cases g
  intro i hi
  rcases block_ops hv hr (hv.fine (p6 hE)) hF hB hi with ⟨t, rfl⟩ | ⟨j, rfl, ho, hn, c, C, x, X, g1, g2, g3, g4⟩
  · right
    have : (toIns dec (pushTag t)).name = "PUSH [TAG]" := by unfold Ins.name; rw [dec_pushTag hr t]; decide +kernel
    rw [this]
    decide +kernel
  · rcases ((evmLike_after p5 hevm).ops c C x X j g1 g2 g3 g4).known with h | h
    · exact Or.inl h
    · exact Or.inr ⟨h.1, h.2.2⟩

/-- What the scheduler returns for a block (C89), whose instructions are known operations. -/
theorem scheduledIds_from {P : Prog} {guide : String → String → Guide} {f : String} {F : Fn} (hF : P.fns f = some F) {b : String} (hknown : ∀ i ∈ F.instrs b, KnownIns i) :
    scheduledIds P guide f b = [] ∨ ∃ tab, (∀ u ∈ tab, PlainId u.id) ∧ ∀ s ∈ scheduledIds P guide f b, Greedy.ScheduledId tab 16 s := by
  unfold scheduledIds
  rw [hF]
  dsimp only
  split
  · exact Or.inl rfl
  split
  · exact Or.inl rfl
  split
  · exact Or.inl rfl
  rename_i built deps hb
  unfold greedyStandalone
  cases hg : Greedy.greedy (built.entries.map (·.instr)) built.src built.tgt deps 16 (guide f b).rounds (F.graph.canJunk b) (guide f b).heur (guide f b).heur'
    (guide f b).plan (guide f b).plan' with
  | none => exact Or.inl rfl
  | some r => exact Or.inr ⟨_, built_plain hknown hb, Greedy.greedy_ids hg⟩

/-- **C86, with the scheduler.** If the compiler writes an assembly for an object with the ids that its scheduler returns, then the assembly does what the object does, provided
that what it does not ensure is right (`Unensured`). Nothing is assumed about the choices of the scheduler.

Partial: what the compiler does not ensure is assumed; objects with variables that have to be stored in memory are excluded. -/
theorem scheduled_like_source_partial {C : Type} [Nonempty C] {names order : List String} {O : Obj} {dec : String → String × Option (List String)}
    {I : Interp Nat (Loc → C)} {arity : String → Nat} {val : Nat → Nat} {main : String} (K : Compilable names O) (ho : CalleesFirst O order)
    (hE : Ending names O) (hI : OpsOk names dec I O) (hm : main ∉ names ++ Lower.haltOps) (he : Emittable dec I arity names O)
    (hval : TagMeaning I val) (hnum : ∀ n, I.num n = n) (hevm : EvmLike names dec I O) {ch : Option String → Choices} {junk : Option String → Bool}
    {guide : String → String → Guide} {code : List Output.Asm} (hc : compileScheduled names order dec main ch junk guide O = some code) :
    ∃ names' O' T, frontEnd names order O = some (names', O', T) ∧
      (Unensured (programOf names' dec main ch junk O') I (scheduledIds (programOf names' dec main ch junk O') guide) → AssemblyLike I dec arity code O) := by
  obtain ⟨r, hr, hc⟩ := Option.bind_eq_some_iff.1 hc
  dsimp only at hc
  split at hc
  case isFalse => cases hc
  case isTrue hst =>
  obtain ⟨names', O', T, h1, h2⟩ := compiled_like_source_partial K ho hE hI hm he hval hnum hevm hc
  rw [h1] at hr
  cases hr
  refine ⟨names', O', T, h1, fun hu => h2 ⟨hu, ?_⟩⟩
  intro f F hF B hB
  obtain ⟨names2, O2, T2, g1, -, g2, -⟩ := whole_compiler_partial K ho hE hI hm he hval hnum
  rw [h1] at g1
  cases g1
  have hf : f ∈ main :: names' := by
    by_cases hf : f = main
    · exact mem_cons.2 (Or.inl hf)
    · have hF' : (if f = main then _ else (O'.fns f).map (toFn names' dec false _)) = some F := hF
      rw [if_neg hf] at hF'
      obtain ⟨C', hC', -⟩ := Option.map_eq_some_iff.1 hF'
      exact mem_cons_of_mem _ ((g2 f).2 ⟨C', hC'⟩)
  have hno : ∀ s ∈ scheduledIds (programOf names' dec main ch junk O') guide f B.id, isStored s = false := by
    have := all_eq_true.1 hst f hf
    unfold storesNothing at this
    rw [hF] at this
    have := all_eq_true.1 (all_eq_true.1 this B hB)
    intro s hs
    have := this s hs
    simpa using this
  have hknown := program_known K ho hE hI hm hevm h1 hF hB
  have hsch := scheduledIds_from (guide := guide) hF hknown
  rcases hsch with h | ⟨tab, ht, hs⟩
  · rw [h]
    exact scheduled_plain (tab := []) (fun s hs => by cases hs) (fun u hu => by cases hu) (fun s hs => by cases hs)
  · exact scheduled_plain hs ht hno

/-- **C86, with the scheduler, documents.** As `scheduled_like_source_partial`, from the document that the compiler reads. -/
theorem scheduled_like_document_partial {C : Type} [Nonempty C] {J : JObj} {order : List String} {dec : String → String × Option (List String)} {I : Interp Nat (Loc → C)}
    {arity : String → Nat} {val : Nat → Nat} {main : String} (hJ : DocOk J) (hu : Underscores J) :
    ∃ O, parseObject J = some O ∧ (Compilable (J.functions.map (·.1)) O → CalleesFirst O order → Ending (J.functions.map (·.1)) O →
      OpsOk (J.functions.map (·.1)) dec I O → main ∉ J.functions.map (·.1) ++ Lower.haltOps → Emittable dec I arity (J.functions.map (·.1)) O →
      TagMeaning I val → (∀ n, I.num n = n) → EvmLike (J.functions.map (·.1)) dec I O →
      ∀ ch junk guide code, compileScheduled (J.functions.map (·.1)) order dec main ch junk guide O = some code →
        ∃ names' O' T, frontEnd (J.functions.map (·.1)) order O = some (names', O', T) ∧
          (Unensured (programOf names' dec main ch junk O') I (scheduledIds (programOf names' dec main ch junk O') guide) → AssemblyOf I dec arity code J)) := by
  obtain ⟨O, hO, hs⟩ := parsed_runs_partial hJ hu
  refine ⟨O, hO, ?_⟩
  intro K ho hE hI hm he hval hnum hevm ch junk guide code hc
  obtain ⟨names', O', T, h1, h2⟩ := scheduled_like_source_partial K ho hE hI hm he hval hnum hevm hc
  refine ⟨names', O', T, h1, ?_⟩
  intro hun w below hw
  have hsame := hs _ _ (meaning I dec) (zeros I) (w, none)
  obtain ⟨h5, h6⟩ := h2 hun w below fun h => hw (hsame.2.2 h)
  refine ⟨fun h => (h5 h).trans (exists_congr fun s => and_congr_left' (hsame.1 s).symm), fun hn => h6 ?_⟩
  rintro ⟨s, hs'⟩
  exact hn ⟨s, (hsame.1 s).2 hs'⟩

end Grey.Whole
