/-
Documents for C65: one that meets the hypotheses, and documents on which the parser is wrong.

    (a, b) := two_results(c0); if a then p := b else p := 7; sstore(1, p); stop
    two_results(x) := (x, 2)
-/
import Verif.Parser.Graph
namespace Grey.Parser
open List Grey.Cfg Grey.Inline

instance (b : JBlock) : Decidable (BlockOk b) :=
  decidable_of_iff ((b.exit.type ∈ exitTypes) ∧ (b.exit.type = "Jump" → b.exit.targets ≠ []) ∧
    (b.exit.type = "ConditionalJump" → 2 ≤ b.exit.targets.length ∧ b.exit.cond ≠ none) ∧ (b.exit.type = "FunctionReturn" → b.exit.returnValues ≠ none) ∧
    b.type ≠ "FunctionReturn" ∧ (∀ i ∈ b.instrs, i.op ≠ "functionReturn") ∧
    ∀ i ∈ b.instrs, i.op = "LiteralAssignment" → i.ins ≠ [] ∧ i.outs ≠ [])
    ⟨fun ⟨a, b, c, d, e, f, g⟩ => ⟨a, b, c, d, e, f, g⟩, fun ⟨a, b, c, d, e, f, g⟩ => ⟨a, b, c, d, e, f, g⟩⟩

instance (bs : List JBlock) : Decidable (BlocksOk bs) :=
  decidable_of_iff ((bs.map (·.id)).Nodup ∧ (∀ b ∈ bs, BlockOk b) ∧ ∀ b ∈ bs, ∀ t ∈ b.exit.targets, ∃ b' ∈ bs, b'.id = t)
    ⟨fun ⟨a, b, c⟩ => ⟨a, b, c⟩, fun ⟨a, b, c⟩ => ⟨a, b, c⟩⟩

instance (bs : List JBlock) : Decidable (PlainExits bs) :=
  decidable_of_iff ((∀ b ∈ bs, b.exit.targets = jsuccs b) ∧ (∀ b ∈ bs, b.exit.targets.Nodup) ∧ ∀ b ∈ bs, b.id ∉ b.exit.targets)
    ⟨fun ⟨a, b, c⟩ => ⟨a, b, c⟩, fun ⟨a, b, c⟩ => ⟨a, b, c⟩⟩

/-- A check that implies `DocOk`. -/
def docOk (J : JObj) : Bool :=
  decide (BlocksOk J.blocks) && J.functions.all (fun e => decide (BlocksOk e.2.blocks) && e.1 != "functionReturn" &&
    decide (e.2.blocks.head?.map (·.id) = some e.2.entry)) && decide (J.functions.map (·.1)).Nodup

theorem docOk_sound {J : JObj} (h : docOk J = true) : DocOk J := by
  unfold docOk at h
  simp only [Bool.and_eq_true, all_eq_true, decide_eq_true_eq] at h
  obtain ⟨⟨h1, h2⟩, h3⟩ := h
  exact ⟨h1, fun f F hf => (h2 (f, F) hf).1.1, h3, fun f F hf => by simpa using (h2 (f, F) hf).1.2, fun f F hf => (h2 (f, F) hf).2⟩

/-- The results of a function with the name `f`. -/
def exDoc (f : String) : JObj where
  name := "object"
  blocks := [
    { id := "Block0", instrs := [⟨"calldataload", ["0x00"], ["c0"]⟩, ⟨f, ["c0"], ["a", "b"]⟩],
      exit := { type := "ConditionalJump", targets := ["Block1", "Block2"], cond := some "a" } },
    { id := "Block1", instrs := [], exit := { type := "Jump", targets := ["Block2"] } },
    { id := "Block2", instrs := [⟨"PhiFunction", ["b", "0x07"], ["p"]⟩, ⟨"sstore", ["p", "0x01"], []⟩], exit := { type := "MainExit" },
      entries := ["Block0", "Block1"] }]
  functions := [(f, ⟨["x"], "Block0",
    [{ id := "Block0", instrs := [], exit := { type := "FunctionReturn", returnValues := some ["x", "0x02"] } }]⟩)]

/-- The document meets the hypotheses of C65. -/
example : DocOk (exDoc "two_results") := docOk_sound (by decide +kernel)

/-- A check that implies `Underscores`. -/
theorem underscores_sound {J : JObj} (h : ((J.blocks ++ J.functions.flatMap fun e => e.2.blocks).all fun b =>
    b.instrs.all fun i => decide (2 ≤ i.outs.length → '_' ∈ i.op.toList)) = true) : Underscores J := by
  intro c blocks hc b hb i hi
  have hmem : b ∈ J.blocks ++ J.functions.flatMap fun e => e.2.blocks := by
    cases c with
    | none =>
      cases hc
      exact mem_append.2 (Or.inl hb)
    | some f =>
      change (J.functions.lookup f).map (·.blocks) = _ at hc
      cases hF : J.functions.lookup f with
      | none => rw [hF] at hc; cases hc
      | some F =>
        rw [hF] at hc
        cases hc
        exact mem_append.2 (Or.inr (mem_flatMap.2 ⟨(f, F), lookup_mem hF, hb⟩))
  exact of_decide_eq_true (all_eq_true.1 (all_eq_true.1 h b hmem) i hi)

example : Underscores (exDoc "two_results") := underscores_sound (by decide +kernel)
example : PlainExits (exDoc "two_results").blocks := by decide +kernel

/-! ### Executions -/

/-- The state in which an execution ends, if it does so within `n` steps. -/
def within {C S : Type} (f : C → Out C S) : Nat → C → Option S
  | 0, _ => none
  | n + 1, c =>
    match f c with
    | .goto d => within f n d
    | .halt s => some s
    | .stuck => none

theorem within_ends {C S : Type} {f : C → Out C S} : ∀ {n : Nat} {c : C} {s : S}, within f n c = some s → Ends f c s := by
  intro n
  induction n with
  | zero => intro c s h; cases h
  | succ n ih =>
    intro c s h
    unfold within at h
    split at h
    · rename_i d hd
      exact .later hd (ih h)
    · rename_i s' hs
      cases h
      exact .now hs
    · cases h

theorem ends_unique {C S : Type} {f : C → Out C S} {c : C} {s s' : S} (h : Ends f c s) (h' : Ends f c s') : s = s' := by
  induction h with
  | now e =>
    cases h' with
    | now e' => rw [e] at e'; cases e'; rfl
    | later e' _ => rw [e] at e'; cases e'
  | later e _ ih =>
    cases h' with
    | now e' => rw [e] at e'; cases e'
    | later e' h2 => rw [e] at e'; cases e'; exact ih h2

/-- Values are constants, the world is the list of the arguments of all operations, and all data are one. -/
def logSem : Sem String (List String) where
  op := fun name args w => if name = "calldataload" then (["0x01"], w, true) else ([], w ++ name :: args, true)
  truth := fun v => v != "0x00"

/-- The example stores the second result. -/
example : Ends (jrun logSem id (exDoc "two_results") []) none ["sstore", "0x01", "0x02"] := within_ends (n := 20) (by decide +kernel)

/-- **Finding.** Without an underscore in the name of the function its results are swapped: the document stores the second result of `f`, the parsed
object stores the first one. -/
theorem results_swapped : ∃ J O, DocOk J ∧ parseObject J = some O ∧
    Ends (jrun logSem id J []) none ["sstore", "0x01", "0x02"] ∧ Ends (run logSem id O []) none ["sstore", "0x01", "0x01"] ∧
    ¬ SameBehaviour (jrun logSem id J []) none (run logSem id O []) none := by
  have h : DocOk (exDoc "f") := docOk_sound (by decide +kernel)
  have h1 : Ends (jrun logSem id (exDoc "f") []) none ["sstore", "0x01", "0x02"] := within_ends (n := 20) (by decide +kernel)
  have h2 : Ends (run logSem id (parsedObj (exDoc "f")) []) none ["sstore", "0x01", "0x01"] := within_ends (n := 20) (by decide +kernel)
  refine ⟨exDoc "f", parsedObj (exDoc "f"), h, parseObject_eq h, h1, h2, fun hs => ?_⟩
  have := ends_unique ((hs.1 _).1 h1) h2
  exact absurd this (by decide +kernel)

/-- A loop that consists of one block. -/
def loopDoc : JObj where
  name := "object"
  blocks := [
    { id := "Block0", instrs := [], exit := { type := "Jump", targets := ["Block1"] } },
    { id := "Block1", instrs := [⟨"sload", ["0x00"], ["c"]⟩], exit := { type := "ConditionalJump", targets := ["Block2", "Block1"], cond := some "c" } },
    { id := "Block2", instrs := [], exit := { type := "MainExit" } }]
  functions := []

/-- **Finding.** A block that leads to itself is not recorded among its predecessors, so the graph is not coherent. -/
theorem self_loop_lost : ∃ J O, DocOk J ∧ parseObject J = some O ∧ (∃ B, O.main.get "object_Block1" = some B ∧ "object_Block1" ∈ B.succs ∧
    B.comesFrom = ["object_Block0"]) ∧ ¬ Coherent O.main := by
  have h : DocOk loopDoc := docOk_sound (by decide +kernel)
  have hB : (parsedObj loopDoc).main.get "object_Block1" = some
      { id := "object_Block1", instrs := [⟨"sload", ["0x00"], ["c"]⟩], jumpType := "conditional", jumpTo := some "object_Block1",
        fallsTo := some "object_Block2", cond := some "c", comesFrom := ["object_Block0"], entries := [] } := by decide +kernel
  refine ⟨loopDoc, parsedObj loopDoc, h, parseObject_eq h, ⟨_, hB, by decide +kernel, rfl⟩, fun hc => ?_⟩
  have := (hc.edges _ _ _ _ hB hB).2 (by decide +kernel)
  exact absurd this (by decide +kernel)

/-- A function whose first block is not its entry. -/
def entryDoc : JObj where
  name := "object"
  blocks := [{ id := "Block0", instrs := [⟨"f", [], []⟩], exit := { type := "MainExit" } }]
  functions := [("f", ⟨[], "Block1",
    [{ id := "Block0", instrs := [], exit := { type := "FunctionReturn", returnValues := some [] } },
      { id := "Block1", instrs := [⟨"log0", [], []⟩], exit := { type := "Jump", targets := ["Block0"] } }]⟩)]

/-- **Finding.** The entry of a function is not looked at: its first block is taken instead. -/
theorem entry_ignored : ∃ J O, parseObject J = some O ∧ Ends (jrun logSem id J []) none ["log0"] ∧ Ends (run logSem id O []) none [] := by
  have h : parseObject entryDoc = some (parsedObj entryDoc) := by
    refine parseObject_of (by decide +kernel) ?_
    intro f F hf
    rw [show entryDoc.functions = [("f", _)] from rfl, mem_singleton] at hf
    cases hf
    decide +kernel
  exact ⟨entryDoc, parsedObj entryDoc, h, within_ends (n := 20) (by decide +kernel), within_ends (n := 20) (by decide +kernel)⟩

end Grey.Parser
