/-
C64, C67 and C75 for the analyses that the compiler computes.
-/
import Verif.Whole.Stored
import Verif.Lower.Analyse
namespace Grey.Whole
open List Grey.Cfg Grey.Inline Grey.Lower Grey.Sfs Grey.Program Grey.SymExec Grey.Front Grey.Stored Grey.Parser

/-- First phi functions, then other instructions. -/
def PhisThenCode (l : List Instr) : Prop := ∃ p c, l = p ++ c ∧ (∀ i ∈ p, isPhi i = true) ∧ ∀ i ∈ c, isPhi i = false

theorem phisThenCode_iff {l : List Instr} : PhisThenCode l ↔ l = l.filter isPhi ++ l.filter fun i => !isPhi i := by
  constructor
  · rintro ⟨p, c, rfl, hp, hc⟩
    rw [filter_append, filter_append, filter_eq_self.2 hp, filter_eq_nil_iff.2 (fun i hi => by rw [hc i hi]; simp),
      filter_eq_nil_iff.2 (fun i hi => by rw [hp i hi]; simp), filter_eq_self.2 (fun i hi => by rw [hc i hi]; rfl)]
    simp
  · intro h
    exact ⟨_, _, h, fun i hi => (mem_filter.1 hi).2, fun i hi => by simpa using (mem_filter.1 hi).2⟩

theorem PhisThenCode.append {l m : List Instr} (h : PhisThenCode l) (hm : ∀ i ∈ m, isPhi i = false) : PhisThenCode (l ++ m) := by
  obtain ⟨p, c, rfl, hp, hc⟩ := h
  exact ⟨p, c ++ m, by simp, hp, fun i hi => (mem_append.1 hi).elim (hc i) (hm i)⟩

theorem PhisThenCode.init {l : List Instr} {i : Instr} (h : PhisThenCode (l ++ [i])) : PhisThenCode l := by
  obtain ⟨p, c, e, hp, hc⟩ := h
  rcases eq_nil_or_concat c with rfl | ⟨c', j, rfl⟩
  · rw [append_nil] at e
    exact ⟨l, [], by simp, fun k hk => hp k (by rw [← e]; exact mem_append_left _ hk), by simp⟩
  · rw [concat_eq_append, ← append_assoc] at e
    obtain ⟨e1, -⟩ := append_inj' e rfl
    exact ⟨p, c', e1, hp, fun k hk => hc k (by simp [hk])⟩

theorem PhisThenCode.after {l ts : List Instr} (h : PhisThenCode l) (ht : ∀ i ∈ ts, isPhi i = false) : PhisThenCode (afterPhis ts l) := by
  obtain ⟨p, c, rfl, hp, hc⟩ := h
  have h1 : (p ++ c).takeWhile isPhi = p := by
    rw [takeWhile_append_of_pos hp]
    cases c with
    | nil => simp
    | cons i c => rw [takeWhile_cons_of_neg (by rw [hc i mem_cons_self]; simp), append_nil]
  have h2 : (p ++ c).dropWhile isPhi = c := by
    rw [dropWhile_append_of_pos hp]
    cases c with
    | nil => rfl
    | cons i c => rw [dropWhile_cons_of_neg (by rw [hc i mem_cons_self]; simp)]
  unfold afterPhis
  rw [h1, h2]
  exact ⟨p, ts ++ c, by simp, hp, fun i hi => (mem_append.1 hi).elim (ht i) (hc i)⟩

theorem deco_phisFirst {names : List String} (hnames : ∀ f ∈ names, f ≠ "PhiFunction") {H : Obj} {T : TagDict} {ret : Option String} {raw : Prop}
    {B : Block} {D : List Instr} (hB : PhisThenCode B.instrs) (h : Deco names H T ret raw B D) : PhisThenCode D := by
  have push : ∀ t, isPhi (pushTag t) = false := fun t => by simp [isPhi, pushTag]
  cases h with
  | exit => exact hB
  | jump => exact hB.append (by simp [pushTag, isPhi])
  | branch => exact hB.append (by simp [pushTag, isPhi])
  | ret o l i hty hj hf hl hi =>
    rw [hl] at hB
    exact hB.init.append (by simp [isPhi, hi])
  | sub => exact hB
  | call l i n ft rt ts hts hty hl hi =>
    rw [hl] at hB
    refine (hB.init.append ?_).after ?_
    · simpa [isPhi, tagCall] using hnames _ hi
    · intro j hj
      obtain ⟨t, -, rfl⟩ := mem_map.1 hj
      exact push t
  | tail l i ft hty hl hi =>
    rw [hl] at hB
    refine (hB.init.append ?_).after ?_
    · simpa [isPhi, tagCall] using hnames _ hi
    · simp [push]

section
variable {V σ : Type} {names : List String} {R : Option String → Option String} {T : TagDict} {H O' : Obj}
  {dec : String → String × Option (List String)} {I : Interp V σ} {main : String} {A : Option String → Analysis}

theorem comp_back (hr : Ready names R T H O' dec I main) {comp : Option String} {C' : Component} (hC' : O'.comp comp = some C') :
    ∃ C, H.comp comp = some C ∧ DecoComp names H T (R comp) (fun _ => False) C C' := by
  cases hC : H.comp comp with
  | none => rw [hr.deco.none comp hC] at hC'; cases hC'
  | some C =>
    obtain ⟨C2, h1, h2⟩ := hr.deco.some comp C hC
    rw [hC'] at h1
    cases h1
    exact ⟨C, rfl, h2⟩

theorem block_back {raw : String → Prop} {ret : Option String} {C C' : Component} (hd : DecoComp names H T ret raw C C') {x : String} {B : Block} (h : C'.body.get x = some B) :
    ∃ X D, C.body.get x = some X ∧ B = { X with instrs := D } ∧ Deco names H T ret (raw x) X D := by
  cases hX : C.body.get x with
  | none => rw [hd.none x hX] at h; cases h
  | some X =>
    obtain ⟨D, h1, h2⟩ := hd.some x X hX
    rw [h] at h1
    cases h1
    exact ⟨X, D, rfl, rfl, h2⟩

/-- The lowered components are as the analyses of the layout generation expect them. -/
theorem lowered_analysable (hr : Ready names R T H O' dec I main) (hF : ∀ c C, H.comp c = some C → FineComp names C) {comp : Option String} {C' : Component}
    (hC' : O'.comp comp = some C') : Analysable C'.body := by
  obtain ⟨C, hC, hd⟩ := comp_back hr hC'
  have hs := hr.parts.sane comp C hC
  have hnames : ∀ f ∈ names, f ≠ "PhiFunction" := fun f hf h => hr.parts.names f hf (by simp [h])
  have back := fun {x : String} {B : Block} (h : C'.body.get x = some B) => block_back hd h
  refine ⟨⟨⟨hd.ids, ?_, ?_, ?_, ?_⟩, ?_, ?_, ?_⟩, ?_, ?_, ?_⟩
  · intro p x P X hP hX
    obtain ⟨Y, D, h1, rfl, -⟩ := back hX
    obtain ⟨Q, E, h2, rfl, -⟩ := back hP
    exact hs.coherent.edges p x Q Y h2 h1
  · intro x X hX p hm
    obtain ⟨Y, D, h1, rfl, -⟩ := back hX
    obtain ⟨Q, hQ⟩ := hs.coherent.preds x Y h1 p hm
    obtain ⟨E, hE, -⟩ := hd.some p Q hQ
    exact ⟨_, hE⟩
  · intro x X hX s hm
    obtain ⟨Y, D, h1, rfl, -⟩ := back hX
    obtain ⟨Q, hQ⟩ := hs.coherent.targets x Y h1 s hm
    obtain ⟨E, hE, -⟩ := hd.some s Q hQ
    exact ⟨_, hE⟩
  · intro x X hX
    obtain ⟨Y, D, h1, rfl, -⟩ := back hX
    exact hs.coherent.once x Y h1
  · intro x X hX
    obtain ⟨Y, D, h1, rfl, -⟩ := back hX
    exact hs.noDouble x Y h1
  · intro x X hX
    obtain ⟨Y, D, h1, rfl, -⟩ := back hX
    exact hs.entries x Y h1
  · obtain ⟨s, S, h1, h2⟩ := hs.start
    obtain ⟨E, hE, -⟩ := hd.some s S h2
    exact ⟨s, _, by rw [hd.start]; exact h1, hE⟩
  · intro x X hX
    obtain ⟨Y, D, h1, rfl, -⟩ := back hX
    exact (hF comp C hC).1.exact x Y h1
  · intro x X hX
    obtain ⟨Y, D, h1, rfl, h2⟩ := back hX
    exact phisThenCode_iff.1 (deco_phisFirst hnames (phisThenCode_iff.2 (hr.parts.blocks comp C hC x Y h1).phisFirst) h2)
  · intro x X hX i hi
    obtain ⟨Y, D, h1, rfl, h2⟩ := back hX
    have hi' : i ∈ phis Y := by
      rw [← deco_phis hnames h2]
      exact hi
    have hok := hr.parts.blocks comp C hC x Y h1
    refine ⟨fun h0 => ?_, (hok.phiShape i hi').1⟩
    have hne : phis Y ≠ [] := fun h => by rw [h] at hi'; cases hi'
    have hj := (hF comp C hC).1.joins x Y h1 hne
    cases hcf : Y.comesFrom with
    | nil => rw [hcf] at hj; simp at hj
    | cons q qs =>
      have := hok.phiEntries hne q (by rw [hcf]; simp)
      rw [show Y.entries = [] from h0] at this
      cases this

/-- The analyses of all components are those of the compiler. -/
def AnalysedBy (ch : Option String → Choices) (junk : Option String → Bool) (O' : Obj) (A : Option String → Analysis) : Prop :=
  ∀ comp C', O'.comp comp = some C' → layoutAnalysis (ch comp) (junk comp) C'.body = some (A comp)

theorem lowered_live (hr : Ready names R T H O' dec I main) (hF : ∀ c C, H.comp c = some C → FineComp names C) {ch : Option String → Choices} {junk : Option String → Bool}
    (hA : AnalysedBy ch junk O' A) {f : String} {F : Fn} (h : (toProg names dec main A O').fns f = some F) {B : Layout.LBlock} (hB : B ∈ F.graph.blocks)
    (hret : (toProg names dec main A O').exit F B = .ret) : F.graph.liveOut B.id = [] := by
  obtain ⟨comp, C, C', rfl, hC, hC', hd, rfl⟩ := prog_fn hr h
  obtain ⟨X, D, s, body, e, hX, hD, hBe, hview, hs, hins, hsp, hph⟩ := prog_block (A := A) hr hC hd hB
  have hex := view_exit (A := A) (F := toFn names dec comp.isNone (A comp) C') (B := B) hr (hr.parts.blocks comp C hC _ X hX) hview hsp (by rw [hBe]; rfl)
  rw [hret] at hex
  subst hex
  show (A comp).liveOut B.id = []
  cases hview with
  | ret o l i hty hj hf =>
    refine dead_at_end (lowered_analysable hr hF hC') (hA comp C' hC') hD ?_
    show (X.jumpTo.toList ++ X.fallsTo.toList : List String) = []
    rw [hj, hf]; rfl

end

/-- The components that the front end produces are as the analyses of the layout generation expect them, and if these analyses are used, nothing is live where a
function returns. -/
theorem front_end_analyses {V σ : Type} {names order names' : List String} {O O' : Obj} {T : TagDict} {dec : String → String × Option (List String)} {I : Interp V σ}
    {main : String} (K : Compilable names O) (ho : CalleesFirst O order) (hE : Ending names O) (hI : OpsOk names dec I O) (hm : main ∉ names ++ Lower.haltOps)
    (h : frontEnd names order O = some (names', O', T)) :
    (∀ comp C', O'.comp comp = some C' → Analysable C'.body) ∧
    ∀ ch junk A, AnalysedBy ch junk O' A → ∀ f F, (toProg names' dec main A O').fns f = some F → ∀ B ∈ F.graph.blocks,
      (toProg names' dec main A O').exit F B = .ret → F.graph.liveOut B.id = [] := by
  obtain ⟨O1, p1, p2, p3, p4, p5, p6⟩ := preprocessed_lowerable K ho
  obtain ⟨O2, T2, f2t, H, h1, hv⟩ := lower_deco p4
  have hI' := ops_after p5 hI
  have hm' : main ∉ (names.filter fun f => (O1.fns f).isSome) ++ Lower.haltOps := by
    intro h2
    rcases mem_append.1 h2 with h3 | h3
    · exact hm (mem_append.2 (Or.inl (mem_filter.1 h3).1))
    · exact hm (mem_append.2 (Or.inr h3))
  have hr := ready_of_inv hv hI' hm'
  have g : frontEnd names order O = some (names.filter fun f => (O1.fns f).isSome, O2, T2) := by unfold frontEnd; rw [p1, Option.bind_some, h1]; rfl
  rw [h] at g
  cases g
  exact ⟨fun comp C' hC' => lowered_analysable hr (hv.fine (p6 hE)) hC', fun ch junk A hA f F hf B hB hret => lowered_live hr (hv.fine (p6 hE)) hA hf hB hret⟩

/-- **C85, layouts.** If no block of a component that the front end has produced precedes two joins, and all its blocks can be reached, the construction of the layouts with the analyses of the
compiler ends without a missing stack, block or level, and gives a result unless the assertion of `unify_stacks_dominant` fails. -/
theorem front_end_layouts {V σ : Type} {names order names' : List String} {O O' : Obj} {T : TagDict} {dec : String → String × Option (List String)} {I : Interp V σ}
    {arity : String → Nat} {val : Nat → V} {main : String} (K : Compilable names O) (ho : CalleesFirst O order) (hE : Ending names O) (hI : OpsOk names dec I O) (hm : main ∉ names ++ Lower.haltOps)
    (he : Emittable dec I arity names O) (hval : TagMeaning I val) (h : frontEnd names order O = some (names', O', T)) {ch : Option String → Choices} {junk : Option String → Bool}
    {A : Option String → Analysis} (hA : AnalysedBy ch junk O' A) (hch : ∀ comp C', O'.comp comp = some C' → (ch comp).Ok C'.body) {f : String} {F : Fn}
    (hF : (toProg names' dec main A O').fns f = some F) (one : Layout.OneJoin F.graph) (reach : ∀ B ∈ F.graph.blocks, Layout.Reachable F.graph B.id) :
    (∃ st, Layout.drive F.graph = .ok st) ∨ Layout.drive F.graph = .error .assertion := by
  have hlive := (front_end_analyses K ho hE hI hm h).2 ch junk A hA f F hF
  obtain ⟨O1, p1, p2, p3, p4, p5, p6⟩ := preprocessed_lowerable K ho
  obtain ⟨O2, T2, f2t, H, h1, hv⟩ := lower_deco p4
  have hI' := ops_after p5 hI
  have hm' : main ∉ (names.filter fun f => (O1.fns f).isSome) ++ Lower.haltOps := by
    intro h2
    rcases mem_append.1 h2 with h3 | h3
    · exact hm (mem_append.2 (Or.inl (mem_filter.1 h3).1))
    · exact hm (mem_append.2 (Or.inr h3))
  have hr := ready_of_inv hv hI' hm'
  have g : frontEnd names order O = some (names.filter fun f => (O1.fns f).isSome, O2, T2) := by unfold frontEnd; rw [p1, Option.bind_some, h1]; rfl
  rw [h] at g
  cases g
  have hFine := hv.fine (p6 hE)
  have hok := fn_ok hv hr hFine (emittable_after p5 hI he) hval hF one (by
    intro hne b
    obtain ⟨comp, C, C', rfl, hC, hC', hd, rfl⟩ := prog_fn hr hF
    cases comp with
    | none => exact absurd rfl hne
    | some g => rfl) hlive
  refine Layout.layouts_fail_only_at_assertion hok.wf one ?_
  obtain ⟨comp, C, C', rfl, hC, hC', hd, rfl⟩ := prog_fn hr hF
  have han := lowered_analysable hr hFine hC'
  refine analysis_navigable han.sane (hch comp C' hC') (hA comp C' hC') ?_ ?_
  · intro s S hs hS
    obtain ⟨X, D, h2, rfl, -⟩ := block_back hd hS
    exact ((hFine comp C hC).1.entry s X (hd.start ▸ hs) h2).1
  · intro s hs b hb
    have key : ∀ x, Layout.Reachable (toFn (names.filter fun f => (O1.fns f).isSome) dec comp.isNone (A comp) C').graph x → Leads C'.body s x := by
      intro x hx
      induction hx with
      | start =>
        show Leads C'.body s (C'.body.start.getD "")
        rw [hs]; exact .refl
      | step _ hB hS hmem ih =>
        refine .tail ih ?_
        obtain ⟨X, hX, rfl⟩ := mem_map.1 hB
        beta_reduce
        rw [show (toLBlock (names.filter fun f => (O1.fns f).isSome) X).id = X.id from rfl, liveGraph_some (Inline.get_of_mem hd.ids hX)]
        exact hmem
    exact key b.id (reach _ (mem_map.2 ⟨b, hb, rfl⟩))

/-- What is left to be checked when the analyses are those of the compiler: as `Checked`, except for what is live. -/
structure CheckedLayouts {C : Type} (P : Prog) (I : Interp Nat (Loc → C)) (sched : String → String → List String) : Prop where
  one : ∀ f F, P.fns f = some F → Layout.OneJoin F.graph
  place : ∀ f F, P.fns f = some F → Placeable F.graph
  accepted : ∀ f F, P.fns f = some F → ∃ st, Accepted I (sched f) F st
  ids : ∀ f F, P.fns f = some F → ∀ B ∈ F.graph.blocks, PlainIds (sched f B.id)
  terminal : ∀ f F, P.fns f = some F → ∀ B ∈ F.graph.blocks, B.jumpType = "terminal" → (∀ s ∈ sched f B.id, s = "NOP") →
    B.phis = [] ∧ F.instrs B.id = []

/-- As `CheckedStored`, except for what is live. -/
structure CheckedLayoutsStored {C : Type} (P : Prog) (I : Interp Nat (Loc → C)) (L : Places) (W : Written) : Prop where
  one : ∀ f F, P.fns f = some F → Layout.OneJoin F.graph
  place : ∀ f F, P.fns f = some F → Placeable F.graph
  places : PlacesOk P L
  blocks : ∀ f F, P.fns f = some F → ∃ st, Layout.drive F.graph = .ok st ∧ ∀ B ∈ F.graph.blocks, ∀ src tgt, (B.id, src, tgt) ∈ st.specs →
    BlockStored I L f B.id (F.instrs B.id) (F.split B.id) src tgt (F.graph.canJunk B.id) (W.pids f B.id) (W.regs f B.id) (W.dups f B.id)
      (W.ops f B.id) ∧
    (Layout.substDuplicates src).Nodup ∧ ∀ v ∈ F.exitOuts B, v ∉ src
  terminal : ∀ f F, P.fns f = some F → ∀ B ∈ F.graph.blocks, B.jumpType = "terminal" → W.sched f B.id = [] → B.phis = [] ∧ F.instrs B.id = []

/-- **C64, with the analyses of the compiler.** As `whole_compiler_partial`, where the liveness, loops, levels, dominance and depths are those that the
layout generation computes (C85); it need not be checked that nothing is live where a function returns. -/
theorem whole_compiler_analysed_partial {C : Type} [Nonempty C] {names order : List String} {O : Obj} {dec : String → String × Option (List String)}
    {I : Interp Nat (Loc → C)} {arity : String → Nat} {val : Nat → Nat} {main : String} (K : Compilable names O) (ho : CalleesFirst O order)
    (hE : Ending names O) (hI : OpsOk names dec I O) (hm : main ∉ names ++ Lower.haltOps) (he : Emittable dec I arity names O)
    (hval : TagMeaning I val) (hnum : ∀ n, I.num n = n) :
    ∃ names' O' T, frontEnd names order O = some (names', O', T) ∧ (∀ comp C', O'.comp comp = some C' → Analysable C'.body) ∧
      ∀ ch junk A, AnalysedBy ch junk O' A → ∀ (sched : String → String → List String) (fuel : Nat), CheckedLayouts (toProg names' dec main A O') I sched →
        (∀ f F, (toProg names' dec main A O').fns f = some F → F.graph.blocks.length ≤ fuel) →
        ∃ code, assemble (toProg names' dec main A O') names' (tagOf T) sched fuel = some code ∧ AssemblyLike I dec arity code O := by
  obtain ⟨names', O', T, h1, -, -, h2⟩ := whole_compiler_partial K ho hE hI hm he hval hnum
  obtain ⟨h3, h4⟩ := front_end_analyses K ho hE hI hm h1
  exact ⟨names', O', T, h1, h3, fun ch junk A hA sched fuel hc hf => h2 A sched fuel ⟨hc.one, h4 ch junk A hA, hc.place, hc.accepted, hc.ids, hc.terminal⟩ hf⟩

/-- **C67, with the analyses of the compiler.** -/
theorem document_analysed_partial {C : Type} [Nonempty C] {J : JObj} {order : List String}
    {dec : String → String × Option (List String)} {I : Interp Nat (Loc → C)} {arity : String → Nat} {val : Nat → Nat} {main : String}
    (hJ : DocOk J) (hu : Underscores J) :
    ∃ O, parseObject J = some O ∧ (Compilable (J.functions.map (·.1)) O → CalleesFirst O order → Ending (J.functions.map (·.1)) O →
      OpsOk (J.functions.map (·.1)) dec I O → main ∉ J.functions.map (·.1) ++ Lower.haltOps → Emittable dec I arity (J.functions.map (·.1)) O →
      TagMeaning I val → (∀ n, I.num n = n) →
      ∃ names' O' T, frontEnd (J.functions.map (·.1)) order O = some (names', O', T) ∧ (∀ comp C', O'.comp comp = some C' → Analysable C'.body) ∧
        ∀ ch junk A, AnalysedBy ch junk O' A → ∀ (sched : String → String → List String) (fuel : Nat), CheckedLayouts (toProg names' dec main A O') I sched →
          (∀ f F, (toProg names' dec main A O').fns f = some F → F.graph.blocks.length ≤ fuel) →
          ∃ code, assemble (toProg names' dec main A O') names' (tagOf T) sched fuel = some code ∧ AssemblyOf I dec arity code J) := by
  obtain ⟨O, hO, h⟩ := document_to_assembly_partial (C := C) (order := order) (dec := dec) (I := I) (arity := arity) (val := val) (main := main) hJ hu
  refine ⟨O, hO, fun K ho hE hI hm he hval hnum => ?_⟩
  obtain ⟨names', O', T, h1, h2⟩ := h K ho hE hI hm he hval hnum
  obtain ⟨h3, h4⟩ := front_end_analyses K ho hE hI hm h1
  exact ⟨names', O', T, h1, h3, fun ch junk A hA sched fuel hc hf => h2 A sched fuel ⟨hc.one, h4 ch junk A hA, hc.place, hc.accepted, hc.ids, hc.terminal⟩ hf⟩

/-- **C75, with the analyses of the compiler.** -/
theorem document_stored_analysed_partial {C : Type} [Nonempty C] {J : JObj} {order : List String}
    {dec : String → String × Option (List String)} {I : Interp Nat (Loc → C)} {arity : String → Nat} {val : Nat → Nat} {main : String}
    (hJ : DocOk J) (hu : Underscores J) :
    ∃ O, parseObject J = some O ∧ (Compilable (J.functions.map (·.1)) O → CalleesFirst O order → Ending (J.functions.map (·.1)) O →
      OpsOk (J.functions.map (·.1)) dec I O → main ∉ J.functions.map (·.1) ++ Lower.haltOps → Emittable dec I arity (J.functions.map (·.1)) O →
      TagMeaning I val → (∀ n, I.num n = n) → MemoryOk I arity →
      ∃ names' O' T, frontEnd (J.functions.map (·.1)) order O = some (names', O', T) ∧ (∀ comp C', O'.comp comp = some C' → Analysable C'.body) ∧
        ∀ ch junk A, AnalysedBy ch junk O' A → ∀ (L : Places) (W : Written) (fuel : Nat), CheckedLayoutsStored (toProg names' dec main A O') I L W →
          (∀ f F, (toProg names' dec main A O').fns f = some F → F.graph.blocks.length ≤ fuel) →
          ∃ code, assemble (toProg names' dec main A O') names' (tagOf T) W.sched fuel = some code ∧
            ∀ w, ¬ Wrong (jrun (meaning I dec) (zeros I) J (w, none)) none →
              (∀ tr c, Program.Runs (toProg names' dec main A O') I (entry I main O' w) tr (.inl c) → KeepsAway (toProg names' dec main A O') I L W c) →
              SameBehaviour I arity code L.cell (fun h => ∃ s, Ends (jrun (meaning I dec) (zeros I) J (w, none)) none s ∧ haltedOf s = h) w) := by
  obtain ⟨O, hO, h⟩ := document_to_assembly_stored_partial (C := C) (order := order) (dec := dec) (I := I) (arity := arity) (val := val) (main := main) hJ hu
  refine ⟨O, hO, fun K ho hE hI hm he hval hnum hmem => ?_⟩
  obtain ⟨names', O', T, h1, h2⟩ := h K ho hE hI hm he hval hnum hmem
  obtain ⟨h3, h4⟩ := front_end_analyses K ho hE hI hm h1
  exact ⟨names', O', T, h1, h3, fun ch junk A hA L W fuel hc hf => h2 A L W fuel ⟨hc.one, h4 ch junk A hA, hc.place, hc.places, hc.blocks, hc.terminal⟩ hf⟩

end Grey.Whole
