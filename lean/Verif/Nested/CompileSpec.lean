/-
Specification for C94: what the compiler does with a document with subobjects if it writes an assembly.
-/
import Verif.Nested.Spec
import Verif.Whole.StoredPipeline
namespace Grey.Nested
open List Grey.Cfg Grey.Inline Grey.Prep Grey.Lower Grey.Program Grey.Parser Grey.Sfs Grey.SymExec Grey.Front Grey.Whole Grey.Stored

/-- What is a parameter for one object: how operations are written, the name of the main code, the orders of the analyses, whether layouts may have other values below, the
answers and plans of the scheduler, and the choices of the reparation (`none`: there are no variables in memory). -/
structure Options where
  dec : String → String × Option (List String)
  main : String
  ch : Option String → Choices
  junk : Option String → Bool
  guide : String → String → Guide
  repair : Option Choice

section
variable {C : Type}

/-- What is assumed about an object: the hypotheses of C86. -/
structure FitAll (topo : CallInfo → List String) (o : Options) (I : Interp Nat (Loc → C)) (arity : String → Nat) (J : JObj) : Prop
    extends Fit topo o.dec I arity o.main J where
  evm : ∀ O, parseObject J = some O → EvmLike (J.functions.map (·.1)) o.dec I O
  memory : o.repair.isSome → MemoryOk I arity

/-- The code does what the document says for the object `J`, of which the front end makes the object `O'` with the functions `names'`, provided that what the compiler does not ensure
is right: as in C86, without variables in memory and with them. -/
def CodeFor (o : Options) (I : Interp Nat (Loc → C)) (arity : String → Nat) (J : JObj) (names' : List String) (O' : Obj) (code : List Output.Asm) : Prop :=
  let P := programOf names' o.dec o.main o.ch o.junk O'
  match o.repair with
  | none => Unensured P I (scheduledIds P o.guide) → AssemblyOf I o.dec arity code J
  | some R => ∀ L, UnensuredStored P I L (writtenBy R (scheduledIds P o.guide)) →
      ∀ w, ¬ Wrong (jrun (meaning I o.dec) (zeros I) J (w, none)) none →
        (∀ tr c, Program.Runs P I (entry I o.main O' w) tr (.inl c) → KeepsAway P I L (writtenBy R (scheduledIds P o.guide)) c) →
        SameBehaviour I arity code L.cell (fun h => ∃ s, Ends (jrun (meaning I o.dec) (zeros I) J (w, none)) none s ∧ haltedOf s = h) w

/-- The front end turns the object `J`, handled without other objects, into `O'`. -/
def FrontOf (topo : CallInfo → List String) (J : JObj) (names' : List String) (O' : Obj) : Prop :=
  ∃ O T, parseObject J = some O ∧
    frontEnd (J.functions.map (·.1)) (topo (callSites (J.functions.map (·.1)) (renameObj (J.functions.map (·.1)) O))) O = some (names', O', T)

end
end Grey.Nested
