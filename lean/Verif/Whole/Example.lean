/-
C64: an object that meets the hypotheses, and its assembly.
-/
import Verif.Whole.Theorem
import Verif.Whole.ExampleDefs
import Verif.Program.FlatExample
namespace Grey.Whole
open List Grey.Cfg Grey.Inline Grey.Lower Grey.Sfs Grey.Program Grey.SymExec Grey.Front

/-- Every tag stands for its number. -/
def whTag : Option (List String) → Nat
  | some [t] => Nat.ofDigitChars 10 t.toList 0
  | _ => 0

theorem whTag_meaning : TagMeaning (evmTag whTag) id where
  push := by
    intro t w
    have : (toString t).toList = Nat.toDigits 10 t := by
      show (Nat.repr t).toList = _
      unfold Nat.repr
      simp
    simp [evmTag, whTag, this]
  inj := fun _ _ h => h

def whCert (c : Option String) : (String → List String) × List String :=
  match c with
  | none => (fun b => if b = "o_Block0" then [] else if b = "o_M3" then ["x", "y"] else ["x", "y", "p"], ["x", "y", "z", "u", "p"])
  | _ => (fun _ => ["x"], ["x", "y"])

theorem whObj_compilable : Compilable ["g", "h"] whObj :=
  compilable_of_check (cert := whCert) (grp := fun _ b => if b = "o_Block0" then 0 else if b = "o_M3" then 1 else if b = "o_M2" then 2 else if b = "g_Block0" then 3
    else 4) (rank := fun _ _ => 0) (main := whMain) (fns := whFns) (by decide +kernel)

theorem whObj_order : CalleesFirst whObj ["g", "h"] :=
  order_of_check whObj_compilable.source.comps (by decide +kernel)

theorem whObj_ending : Ending ["g", "h"] whObj := by
  have hall : ((compsOf whMain whFns).all fun p => p.2.body.blocks.all fun X => (X.entries.isEmpty || X.entries == X.comesFrom) &&
      (X.jumpType != "terminal" || match X.instrs.getLast? with
        | none => true
        | some i => decide (i.op ∈ Lower.haltOps ++ ["g", "h"])) && X.jumpType != "mainExit") = true := by decide +kernel
  simp only [all_eq_true, Bool.and_eq_true, Bool.or_eq_true, bne_iff_ne, beq_iff_eq, List.isEmpty_iff] at hall
  refine ⟨fun c C hC x X hX => ?_, fun c C hC x X hX hj => ?_, fun c C hC x X hX hj => ?_⟩
  · rcases (hall _ (mem_compsOf hC) X (get_mem hX)).1.1 with h | h
    · exact Or.inl h
    · exact Or.inr (h ▸ Perm.refl _)
  · rcases (hall _ (mem_compsOf hC) X (get_mem hX)).1.2 with h | h
    · exact absurd hj h
    · split at h
      · rename_i e
        exact Or.inl (getLast?_eq_none_iff.1 e)
      · rename_i i e
        exact Or.inr ⟨i, e, of_decide_eq_true h⟩
  · exact absurd hj (hall _ (mem_compsOf hC) X (get_mem hX)).2

/-- The operations of the object. -/
theorem whObj_code {c : Option String} {C : Cfg.Component} {x : String} {X : Block} {i : Instr} (hC : whObj.comp c = some C) (hX : C.body.get x = some X)
    (hi : i ∈ code X) : (i.op ∈ ["functionReturn", "stop"] ∧ i.outs = [] ∧ (i.op = "stop" → i.ins = [])) ∨ i.op ∈ ["g", "h"] ∨ Fragment (toIns whDec i) ∧ i.op ≠ "PUSH [tag]" := by
  have hall : ((compsOf whMain whFns).all fun p => p.2.body.blocks.all fun Y => (code Y).all fun j =>
      decide ((j.op ∈ ["functionReturn", "stop"] ∧ j.outs = [] ∧ (j.op = "stop" → j.ins = [])) ∨ j.op ∈ ["g", "h"] ∨ Fragment (toIns whDec j) ∧ j.op ≠ "PUSH [tag]")) = true := by
    decide +kernel
  simp only [all_eq_true, decide_eq_true_eq] at hall
  exact hall _ (mem_compsOf hC) X (get_mem hX) i hi

theorem whObj_ops : OpsOk ["g", "h"] whDec (evmTag whTag) whObj := by
  refine ⟨fun o _ => rfl, ?_, fun t w => by simp [evmTag]⟩
  intro c C x X i hC hX hi hop
  obtain ⟨u1, u2, u3, u4, u5⟩ := evmUp
  rcases whObj_code hC hX hi with ⟨h, -⟩ | h | ⟨h, hn⟩
  · exact absurd (by simp only [mem_cons, not_mem_nil, or_false] at h; rcases h with h | h <;> rw [h] <;> decide) hop
  · exact absurd (by simp only [mem_cons, not_mem_nil, or_false] at h; rcases h with h | h <;> rw [h] <;> decide) hop
  · obtain ⟨-, h⟩ := h
    obtain ⟨op, ins, outs⟩ := i
    simp only [toIns, whDec] at h hn hop ⊢
    rcases h with ⟨rfl, h1, h2⟩ | ⟨rfl, h1, h2⟩ | ⟨rfl, h1, h2⟩ | ⟨rfl, h1, h2⟩
    · refine ⟨by decide +kernel, fun args w ha => ?_, fun e => absurd e (by decide)⟩
      obtain ⟨a, rfl⟩ : ∃ a, args = [a] := length_eq_one_iff.1 (ha.trans h1)
      simp [operation, u4, evmTag, evm, h2]
    · refine ⟨by decide +kernel, fun args w ha => ?_, fun e => absurd e (by decide)⟩
      obtain ⟨a, b, rfl⟩ : ∃ a b, args = [a, b] := length_eq_two.1 (ha.trans h1)
      simp [operation, u3, evmTag, evm, h2]
    · refine ⟨by decide +kernel, fun args w ha => ?_, fun e => absurd e (by decide)⟩
      obtain ⟨a, b, rfl⟩ : ∃ a b, args = [a, b] := length_eq_two.1 (ha.trans h1)
      simp [operation, u5, evmTag, evm, h2]
    · exact absurd rfl hn

theorem whObj_emittable : Emittable whDec (evmTag whTag) exArity ["g", "h"] whObj := by
  refine ⟨rfl, ?_, ?_, ?_⟩
  · intro c C x X i hC hX hi ho
    rcases whObj_code hC hX hi with ⟨-, h, -⟩ | h | ⟨⟨-, h⟩, -⟩
    · exact h
    · rw [ho] at h; exact absurd h (by decide)
    · exfalso
      simp only [toIns, whDec, ho] at h
      rcases h with ⟨h, -⟩ | ⟨h, -⟩ | ⟨h, -⟩ | ⟨h, -⟩ <;> exact absurd h (by decide)
  · intro c C x X i hC hX hi ho
    rcases whObj_code hC hX hi with ⟨h0, h1, h2⟩ | h | ⟨⟨-, h⟩, -⟩
    · simp only [mem_cons, not_mem_nil, or_false] at h0
      rcases h0 with h0 | h0
      · rw [h0] at ho; exact absurd ho (by decide)
      · refine ⟨h1, ?_⟩
        rw [h2 h0, h0]
        decide +kernel
    · exfalso
      simp only [mem_cons, not_mem_nil, or_false] at h
      rcases h with h | h <;> rw [h] at ho <;> exact absurd ho (by decide)
    · exfalso
      simp only [toIns, whDec] at h
      rcases h with ⟨h, -⟩ | ⟨h, -⟩ | ⟨h, -⟩ | ⟨h, -⟩ <;> rw [h] at ho <;> exact absurd ho (by decide)
  · intro c C x X i hC hX hi ho
    rcases whObj_code hC hX hi with ⟨h, -⟩ | h | ⟨h, hn⟩
    · exact absurd (by simp only [mem_cons, not_mem_nil, or_false] at h; rcases h with h | h <;> rw [h] <;> decide) ho
    · exact absurd (by simp only [mem_cons, not_mem_nil, or_false] at h; rcases h with h | h <;> rw [h] <;> decide) ho
    · exact fragment_writable h fun e => absurd e hn

/-- The schedules. -/
def whSched (_ b : String) : List String :=
  if b = "o_Block0f" then ["PUSH [TAG]_1", "PUSH0_0", "SLOAD_0", "PUSH [TAG]_0"]
  else if b = "o_Block0s" then ["DUP1", "DUP1", "PUSH_0", "SSTORE_0", "PUSH [TAG]_0"]
  else if b = "o_M3ff" then ["PUSH [TAG]_1", "SWAP1", "PUSH_0", "ADD_0", "PUSH [TAG]_0"]
  else if b = "o_M3fs" then ["PUSH [TAG]_0"]
  else if b = "o_M2" then ["DUP1", "PUSH_0", "SSTORE_0"]
  else if b = "g_Block0" then ["PUSH_0", "ADD_0", "SWAP1"]
  else []

/-- The main code and the function after the front end. -/
def whMainFn : Fn := (whProg.fns "main").getD ⟨exMainGraph, fun _ => [], fun _ => none⟩
def whGFn : Fn := (whProg.fns "g").getD ⟨exMainGraph, fun _ => [], fun _ => none⟩

theorem whMain_place : Placeable whMainFn.graph where
  entry := ⟨"o_", "f", by decide +kernel⟩
  known := by decide +kernel
  reach := by
    have hids : whMainFn.graph.blocks.map (·.id) = ["o_M2", "o_Block0f", "o_Block0s", "o_M3ff", "o_M3fs"] := by decide +kernel
    have hstep : ∀ b c : String, Layout.Reachable whMainFn.graph b →
        (∃ B ∈ whMainFn.graph.blocks, B.id = b ∧ ∃ S ∈ whMainFn.graph.blocks, S.id = c ∧ c ∈ B.succs) → Layout.Reachable whMainFn.graph c := by
      rintro b c h ⟨B, hB, rfl, S, hS, rfl, h'⟩
      exact .step h hB hS h'
    have hs : whMainFn.graph.start = "o_Block0f" := by decide +kernel
    have r0 : Layout.Reachable whMainFn.graph "o_Block0f" := hs ▸ Layout.Reachable.start
    have r1 := hstep "o_Block0f" "o_Block0s" r0 (by decide +kernel)
    have r2 := hstep "o_Block0s" "o_M3ff" r1 (by decide +kernel)
    have r3 := hstep "o_M3ff" "o_M3fs" r2 (by decide +kernel)
    have r4 := hstep "o_M3fs" "o_M2" r3 (by decide +kernel)
    intro B hB
    have : B.id ∈ whMainFn.graph.blocks.map (·.id) := mem_map.2 ⟨B, hB, rfl⟩
    rw [hids] at this
    simp only [mem_cons, not_mem_nil, or_false] at this
    rcases this with e | e | e | e | e <;> rw [e] <;> assumption
  oneFall := by
    have : ∀ B ∈ whMainFn.graph.blocks, ∀ C ∈ whMainFn.graph.blocks, B.fallsTo.isSome → B.fallsTo = C.fallsTo → B = C := by decide +kernel
    exact fun B hB C hC d h1 h2 => this B hB C hC (by rw [h1]; rfl) (by rw [h1, h2])
  noSelf := by decide +kernel
  condJump := by
    have : ∀ B ∈ whMainFn.graph.blocks, B.jumpTo.isSome → B.fallsTo.isSome → ∀ C ∈ whMainFn.graph.blocks,
        C.fallsTo ≠ B.jumpTo ∧ (C.jumpTo = B.jumpTo → C = B) := by decide +kernel
    intro B hB j d h1 h2 C hC
    rw [← h1]
    exact this B hB (by rw [h1]; rfl) (by rw [h2]; rfl) C hC
  chain := by
    have : ∀ B ∈ whMainFn.graph.blocks, ∀ C ∈ whMainFn.graph.blocks, B.fallsTo = some C.id → C.fallsTo.isSome → C.id = "o_Block0s" ∧ C.fallsTo = some "o_M2" := by
      decide +kernel
    intro B hB C hC d h1 h2 h
    obtain ⟨e1, e2⟩ := this B hB C hC h1 (by rw [h2]; rfl)
    rw [e1] at h
    rw [e2, Option.some.injEq] at h2
    subst h2
    have := avoiding_closed ["o_Block0f", "o_Block0s"] (by decide +kernel) (by decide +kernel) h
    simp at this

theorem whG_place : Placeable whGFn.graph where
  entry := ⟨"g_", "", by decide +kernel⟩
  known := by decide +kernel
  reach := by
    have : ∀ B ∈ whGFn.graph.blocks, B.id = whGFn.graph.start := by decide +kernel
    intro B hB
    rw [this B hB]
    exact .start
  oneFall := by
    have : ∀ B ∈ whGFn.graph.blocks, B.fallsTo = none := by decide +kernel
    intro B hB C hC d h
    rw [this B hB] at h
    simp at h
  noSelf := by decide +kernel
  condJump := by
    have : ∀ B ∈ whGFn.graph.blocks, B.fallsTo = none := by decide +kernel
    intro B hB j d _ h
    rw [this B hB] at h
    simp at h
  chain := by
    have : ∀ B ∈ whGFn.graph.blocks, B.fallsTo = none := by decide +kernel
    intro B hB C hC d h
    rw [this B hB] at h
    simp at h

theorem plain_ids {ids : List String} (h : (ids.all fun s => match classify s with
    | some (.dup n) => decide (n ≤ 16 ∧ s = "DUP" ++ toString n)
    | some (.swap n) => decide (n ≤ 16 ∧ s = "SWAP" ++ toString n)
    | some (.get _) => false
    | some (.set _) => false
    | _ => true) = true) : PlainIds ids := by
  rw [all_eq_true] at h
  refine ⟨fun s hs n e => ?_, fun s hs n e => ?_, fun s hs v e => ?_, fun s hs v e => ?_⟩ <;> have := h s hs <;> rw [e] at this
  · exact of_decide_eq_true this
  · exact of_decide_eq_true this
  · cases this
  · cases this

theorem wh_checked (hfns : ∀ f F, whProg.fns f = some F → (f = "main" ∧ F = whMainFn) ∨ (f = "g" ∧ F = whGFn)) :
    Checked whProg (evmTag whTag) whSched := by
  have hm : whProg.fns "main" = some whMainFn := by
    have : (whProg.fns "main").isSome = true := by decide +kernel
    obtain ⟨F, hF⟩ := Option.isSome_iff_exists.1 this
    unfold whMainFn
    rw [hF]; rfl
  refine ⟨?_, ?_, ?_, ?_, ?_, ?_⟩
  · intro f F hF
    rcases hfns f F hF with ⟨rfl, rfl⟩ | ⟨rfl, rfl⟩ <;> unfold Layout.OneJoin <;> decide +kernel
  · intro f F hF
    rcases hfns f F hF with ⟨rfl, rfl⟩ | ⟨rfl, rfl⟩ <;> decide +kernel
  · intro f F hF
    rcases hfns f F hF with ⟨rfl, rfl⟩ | ⟨rfl, rfl⟩
    · exact whMain_place
    · exact whG_place
  · intro f F hF
    rcases hfns f F hF with ⟨rfl, rfl⟩ | ⟨rfl, rfl⟩ <;> exact accepted_of (by decide +kernel) (by decide +kernel)
  · intro f F hF B hB
    have h1 : ∀ b ∈ ["o_M2", "o_Block0f", "o_Block0s", "o_M3ff", "o_M3fs", "g_Block0"], ∀ f, PlainIds (whSched f b) := by
      intro b hb f
      show PlainIds (whSched "" b)
      simp only [mem_cons, not_mem_nil, or_false] at hb
      rcases hb with rfl | rfl | rfl | rfl | rfl | rfl <;> exact plain_ids (by decide +kernel)
    refine h1 _ ?_ f
    rcases hfns f F hF with ⟨rfl, rfl⟩ | ⟨rfl, rfl⟩
    · have : ∀ B ∈ whMainFn.graph.blocks, B.id ∈ ["o_M2", "o_Block0f", "o_Block0s", "o_M3ff", "o_M3fs", "g_Block0"] := by decide +kernel
      exact this B hB
    · have : ∀ B ∈ whGFn.graph.blocks, B.id ∈ ["o_M2", "o_Block0f", "o_Block0s", "o_M3ff", "o_M3fs", "g_Block0"] := by decide +kernel
      exact this B hB
  · intro f F hF B hB hj hn
    rcases hfns f F hF with ⟨rfl, rfl⟩ | ⟨rfl, rfl⟩
    · have : ∀ B ∈ whMainFn.graph.blocks, B.jumpType = "terminal" → ∃ s ∈ whSched "main" B.id, s ≠ "NOP" := by decide +kernel
      obtain ⟨s, hs, hne⟩ := this B hB hj
      exact absurd (hn s hs) hne
    · have : ∀ B ∈ whGFn.graph.blocks, B.jumpType = "terminal" → ∃ s ∈ whSched "g" B.id, s ≠ "NOP" := by decide +kernel
      obtain ⟨s, hs, hne⟩ := this B hB hj
      exact absurd (hn s hs) hne

/-- The functions of the program that results. -/
theorem wh_fns {names' : List String} {O' : Obj} {T : TagDict} (hl : whLow = (names', O', T)) (h3 : ∀ f, f ∈ names' ↔ ∃ F, O'.fns f = some F) :
    ∀ f F, whProg.fns f = some F → (f = "main" ∧ F = whMainFn) ∨ (f = "g" ∧ F = whGFn) := by
  have hnames : names' = ["g"] := by
    have : whLow.1 = ["g"] := by decide +kernel
    rw [hl] at this
    exact this
  have hp : whProg = toProg names' whDec "main" whAna O' := by unfold whProg; rw [hl]
  intro f F hF
  by_cases hf : f = "main"
  · subst hf
    exact Or.inl ⟨rfl, by unfold whMainFn; rw [hF]; rfl⟩
  · have hg : f = "g" := by
      have hF' := hF
      rw [hp] at hF'
      unfold toProg at hF'
      simp only [if_neg hf, Option.map_eq_some_iff] at hF'
      obtain ⟨G, hG, -⟩ := hF'
      have := (h3 f).2 ⟨G, hG⟩
      rw [hnames] at this
      simpa using this
    subst hg
    exact Or.inr ⟨rfl, by unfold whGFn; rw [hF]; rfl⟩

/-- The object meets the hypotheses of C64: its assembly does what it does. -/
theorem wh_assembly : ∃ code, assemble whProg whLow.1 (tagOf whLow.2.2) whSched 5 = some code ∧ AssemblyLike (evmTag whTag) whDec exArity code whObj := by
  obtain ⟨names', O', T, h1, h2, h3, h4⟩ := whole_compiler_partial whObj_compilable whObj_order whObj_ending whObj_ops (main := "main") (by decide +kernel)
    whObj_emittable whTag_meaning (fun _ => rfl)
  have hl : whLow = (names', O', T) := by unfold whLow; rw [h1]; rfl
  have hp : whProg = toProg names' whDec "main" whAna O' := by unfold whProg; rw [hl]
  have hfns := wh_fns hl h3
  have hc := wh_checked hfns
  have hfuel : ∀ f F, whProg.fns f = some F → F.graph.blocks.length ≤ 5 := by
    intro f F hF
    rcases hfns f F hF with ⟨rfl, rfl⟩ | ⟨rfl, rfl⟩ <;> decide +kernel
  obtain ⟨code, e1, e2⟩ := h4 whAna whSched 5 (hp ▸ hc) (hp ▸ hfuel)
  exact ⟨code, by rw [hl, hp]; exact e1, e2⟩

/-- The assembly. -/
example : assemble whProg whLow.1 (tagOf whLow.2.2) whSched 5 = some [
      ⟨"PUSH [tag]", some "4", none⟩, ⟨"PUSH", some "0", none⟩, ⟨"SLOAD", none, none⟩, ⟨"PUSH [tag]", some "3", none⟩, ⟨"JUMP", none, some "[in]"⟩,
      ⟨"tag", some "4", none⟩, ⟨"JUMPDEST", none, none⟩, ⟨"DUP1", none, none⟩, ⟨"DUP1", none, none⟩, ⟨"PUSH", some "1", none⟩,
      ⟨"SSTORE", none, none⟩, ⟨"PUSH [tag]", some "1", none⟩, ⟨"JUMPI", none, none⟩, ⟨"tag", some "2", none⟩, ⟨"JUMPDEST", none, none⟩,
      ⟨"DUP1", none, none⟩, ⟨"PUSH", some "3", none⟩, ⟨"SSTORE", none, none⟩, ⟨"STOP", none, none⟩, ⟨"tag", some "1", none⟩,
      ⟨"JUMPDEST", none, none⟩, ⟨"PUSH [tag]", some "5", none⟩, ⟨"SWAP1", none, none⟩, ⟨"PUSH", some "5", none⟩, ⟨"ADD", none, none⟩,
      ⟨"PUSH [tag]", some "3", none⟩, ⟨"JUMP", none, some "[in]"⟩, ⟨"tag", some "5", none⟩, ⟨"JUMPDEST", none, none⟩, ⟨"PUSH [tag]", some "2", none⟩,
      ⟨"JUMP", none, none⟩, ⟨"tag", some "3", none⟩, ⟨"JUMPDEST", none, none⟩, ⟨"PUSH", some "1", none⟩, ⟨"ADD", none, none⟩,
      ⟨"SWAP1", none, none⟩, ⟨"JUMP", none, some "[out]"⟩] := by
  decide +kernel

end Grey.Whole
