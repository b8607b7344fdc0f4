/-
C94 with C95: a document with subobjects, where the contents of memory come from the choices of the reparation.
-/
import Verif.Nested.Compile
import Verif.Whole.Placed
namespace Grey.Nested
open List Grey.Cfg Grey.Inline Grey.Prep Grey.Lower Grey.Program Grey.Parser Grey.Sfs Grey.SymExec Grey.Front Grey.Whole Grey.Stored

/-- As `CodeFor`; what is assumed about variables in memory is that they are placed as the reparation does it, and that what the compiler does not ensure then (`UnensuredPlaced`) is right. -/
def PlacedFor {C : Type} (o : Options) (I : Interp Nat (Loc → C)) (arity : String → Nat) (J : JObj) (names' : List String) (O' : Obj) (code : List Output.Asm) : Prop :=
  let P := programOf names' o.dec o.main o.ch o.junk O'
  match o.repair with
  | none => Unensured P I (scheduledIds P o.guide) → AssemblyOf I o.dec arity code J
  | some R => ∀ T inLoop D, UnensuredPlaced P I R (scheduledIds P o.guide) T inLoop D →
      let W := writtenBy R (scheduledIds P o.guide)
      let L := Kept.placesOf P W R.cell T (o.main :: names')
      ∀ w, ¬ Wrong (jrun (meaning I o.dec) (zeros I) J (w, none)) none →
        (∀ tr c, Program.Runs P I (entry I o.main O' w) tr (.inl c) → KeepsAway P I L W c) →
        SameBehaviour I arity code L.cell (fun h => ∃ s, Ends (jrun (meaning I o.dec) (zeros I) J (w, none)) none s ∧ haltedOf s = h) w

/-- **C94 and C95.** As `contract_compiled_partial`, with the contents of memory derived from the placement of the stores and the scan, for every object of the document.

Partial: as C94 and C95. -/
theorem contract_placed_partial {C : Type} [Nonempty C] {topo : CallInfo → List String} {opts : String → Options} {t : Tree JObj} {rest : List (Tree JObj)}
    {I : JObj → Interp Nat (Loc → C)} {arity : JObj → String → Nat} (hn : ((Tree.alls (t :: rest)).map (·.name)).Nodup)
    (hfit : ∀ J ∈ Tree.alls (t :: rest), FitAll topo (opts J.name) (I J) (arity J) J) {a : Assembly} (hc : compileDocs topo opts (t :: rest) = some a) (path : List Nat) :
    (∀ J, (t.at path).map (·.root) = some J →
      ∃ b names' O', a.at path = some b ∧ FrontOf topo J names' O' ∧ PlacedFor (opts J.name) (I J) (arity J) J names' O' b.code) ∧
    (t.at path = none → a.at path = none) := by
  refine contract_each hn hfit hc ?_ path
  intro J hJ O names' O' T code hO hfr h1 h2
  have hf := hfit J hJ
  unfold PlacedFor
  dsimp only
  obtain ⟨val, hval⟩ := hf.tags
  cases hr : (opts J.name).repair with
  | none =>
    dsimp only
    obtain ⟨O2, hO2, h⟩ := scheduled_like_document_partial (order := topo (callSites (J.functions.map (·.1)) (renameObj (J.functions.map (·.1)) O)))
      (dec := (opts J.name).dec) (I := I J) (arity := arity J) (val := val) (main := (opts J.name).main) hf.doc hf.results
    obtain rfl : O = O2 := Option.some.inj (hO.symm.trans hO2)
    obtain ⟨n2, O2', T2, g1, g2⟩ := h (hf.compilable _ hO2) (hf.order _ hO2) (hf.ending _ hO2) (hf.ops _ hO2) hf.main (hf.emittable _ hO2) hval hf.nums (hf.evm _ hO2)
      _ _ _ _ (h1 hr)
    rw [hfr] at g1
    cases g1
    exact g2
  | some R =>
    dsimp only
    obtain ⟨O2, hO2, h⟩ := placed_like_document_partial (order := topo (callSites (J.functions.map (·.1)) (renameObj (J.functions.map (·.1)) O)))
      (dec := (opts J.name).dec) (I := I J) (arity := arity J) (val := val) (main := (opts J.name).main) hf.doc hf.results
    obtain rfl : O = O2 := Option.some.inj (hO.symm.trans hO2)
    obtain ⟨n2, O2', T2, g1, g2⟩ := h (hf.compilable _ hO2) (hf.order _ hO2) (hf.ending _ hO2) (hf.ops _ hO2) hf.main (hf.emittable _ hO2) hval hf.nums
      (hf.memory (by rw [hr]; rfl)) (hf.evm _ hO2) _ _ _ _ _ (h2 R hr)
    rw [hfr] at g1
    cases g1
    exact g2

end Grey.Nested
