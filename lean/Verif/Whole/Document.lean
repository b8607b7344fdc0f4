/-
C67: from the document to the assembly.
-/
import Verif.Whole.Theorem
import Verif.Parser.Graph
namespace Grey.Whole
open List Grey.Cfg Grey.Inline Grey.Front Grey.Lower Grey.Sfs Grey.Program Grey.SymExec Grey.Parser

section
variable {V σ : Type}

/-- The assembly does what the document says: whenever the document does not get stuck, the machine with a program counter that starts at the first
item with any stack ends with an operation exactly if the document does, with the same operation, arguments and state; and it runs forever if the
document does. -/
def AssemblyOf (I : Interp V σ) (dec : String → String × Option (List String)) (arity : String → Nat) (code : List Output.Asm) (J : JObj) : Prop :=
  ∀ (w : σ) (below : List V), ¬ Wrong (jrun (meaning I dec) (zeros I) J (w, none)) none →
    (∀ h, (∃ n, FRuns code I arity ⟨0, below, w⟩ n (.inr h)) ↔ ∃ s, Ends (jrun (meaning I dec) (zeros I) J (w, none)) none s ∧ haltedOf s = h) ∧
    ((¬ ∃ s, Ends (jrun (meaning I dec) (zeros I) J (w, none)) none s) → ∀ k, ∃ n st, k ≤ n ∧ FRuns code I arity ⟨0, below, w⟩ n (.inl st))

end

/-- **C67.** From the document that solc has written to the assembly. The document is parsed; if the object meets the hypotheses of C64, the front end
succeeds, and if nothing is wrong with the analyses, layouts and schedules of the program that results, the assembly is written, and it does what the
document says.

Partial: as in C64 and C65 (`Checked` is assumed, and results of functions without an underscore in their name are excluded). -/
theorem document_to_assembly_partial {C : Type} [Nonempty C] {J : JObj} {order : List String}
    {dec : String → String × Option (List String)} {I : Interp Nat (Loc → C)} {arity : String → Nat} {val : Nat → Nat} {main : String}
    (hJ : DocOk J) (hu : Underscores J) :
    ∃ O, parseObject J = some O ∧ (Compilable (J.functions.map (·.1)) O → CalleesFirst O order → Ending (J.functions.map (·.1)) O →
      OpsOk (J.functions.map (·.1)) dec I O → main ∉ J.functions.map (·.1) ++ Lower.haltOps → Emittable dec I arity (J.functions.map (·.1)) O →
      TagMeaning I val → (∀ n, I.num n = n) →
      ∃ names' O' T, frontEnd (J.functions.map (·.1)) order O = some (names', O', T) ∧
        ∀ (A : Option String → Analysis) (sched : String → String → List String) (fuel : Nat), Checked (toProg names' dec main A O') I sched →
          (∀ f F, (toProg names' dec main A O').fns f = some F → F.graph.blocks.length ≤ fuel) →
          ∃ code, assemble (toProg names' dec main A O') names' (tagOf T) sched fuel = some code ∧ AssemblyOf I dec arity code J) := by
  obtain ⟨O, hO, hs⟩ := parsed_runs_partial hJ hu
  refine ⟨O, hO, ?_⟩
  intro K ho hE hI hm he hval hnum
  obtain ⟨names', O', T, h1, -, -, h2⟩ := whole_compiler_partial K ho hE hI hm he hval hnum
  refine ⟨names', O', T, h1, ?_⟩
  intro A sched fuel hc hf
  obtain ⟨code, h3, h4⟩ := h2 A sched fuel hc hf
  refine ⟨code, h3, ?_⟩
  intro w below hw
  have hsame := hs _ _ (meaning I dec) (zeros I) (w, none)
  obtain ⟨h5, h6⟩ := h4 w below fun h => hw (hsame.2.2 h)
  refine ⟨fun h => (h5 h).trans (exists_congr fun s => and_congr_left' (hsame.1 s).symm), fun hn => h6 ?_⟩
  rintro ⟨s, hs'⟩
  exact hn ⟨s, (hsame.1 s).2 hs'⟩

end Grey.Whole
