/-
From source objects to assembly: C64.
-/
import Verif.Whole.Lowered
import Verif.Front.Theorem
namespace Grey.Whole
open List Grey.Cfg Grey.Inline Grey.Lower Grey.Sfs Grey.Program Grey.SymExec Grey.Front

/-- The operations can still be written after renaming, inlining and combining. -/
theorem emittable_after {V σ : Type} {names : List String} {O O1 : Obj} {I : Interp V σ} {dec : String → String × Option (List String)} {arity : String → Nat}
    (p5 : ∀ c C, O1.comp c = some C → ∀ x X, C.body.get x = some X → ∀ i ∈ code X, FromSource O i ∧ (i.op ∈ names → ∃ F, O1.fns i.op = some F))
    (hI : OpsOk names dec I O) (he : Emittable dec I arity names O) : Emittable dec I arity (names.filter fun f => (O1.fns f).isSome) O1 := by
  have nil : ∀ {l l' : List String}, l.length = l'.length → l' = [] → l = [] := by
    rintro l l' h rfl; exact length_eq_zero_iff.1 h
  refine ⟨he.stop, ?_, ?_, ?_⟩
  · intro c C x X i hC hX hi ho
    obtain ⟨c0, C0, x0, X0, i0, q1, q2, q3, q4, q5, q6, q7, q8⟩ := source_op p5 hC hX hi
    exact nil q6 (he.returns c0 C0 x0 X0 i0 q1 q2 q3 (q4 ▸ ho))
  · intro c C x X i hC hX hi ho
    obtain ⟨c0, C0, x0, X0, i0, q1, q2, q3, q4, q5, q6, q7, q8⟩ := source_op p5 hC hX hi
    obtain ⟨h1, h2⟩ := he.halts c0 C0 x0 X0 i0 q1 q2 q3 (q4 ▸ ho)
    exact ⟨nil q6 h1, by rw [q5, q4]; exact h2⟩
  · intro c C x X i hC hX hi ho
    obtain ⟨c0, C0, x0, X0, i0, q1, q2, q3, q4, q5, q6, q7, q8⟩ := source_op p5 hC hX hi
    have hw := he.other c0 C0 x0 X0 i0 q1 q2 q3 (q8 ho)
    have hop := (hI.other c0 C0 x0 X0 i0 q1 q2 q3 (q8 ho)).1
    have e1 : (toIns dec i).op = (toIns dec i0).op := by show (dec i.op).1 = (dec i0.op).1; rw [q4]
    have e2 : (toIns dec i).lits = (toIns dec i0).lits := by show (dec i.op).2 = (dec i0.op).2; rw [q4]
    have e3 : (toIns dec i).name = (toIns dec i0).name := by unfold Ins.name; rw [e1]
    cases hw with
    | const h => exact .const (by rw [e1]; exact h)
    | tag n h ha ho =>
      exfalso
      apply hop
      have h' : (dec i0.op).1 = "PUSH [tag]" := h
      rw [h']
      decide +kernel
    | op h1 h2 ha hv hl =>
      refine .op (by rw [e3]; exact h1) (by rw [e3]; exact h2) (by rw [e3, ← ha]; exact q5) (by rw [e3, e1]; exact hv) ?_
      rw [e1, e2, e3]
      exact hl

/-- **C64.** From the object the parser has built to the assembly that is written in the end. The front end succeeds (as in C63). If for the
program that results nothing is wrong with the analyses, layouts and schedules (`Checked`), the assembly is written, and it does what the object
does: from every initial state and with every stack, its execution ends with an operation exactly if the object does, with the same operation,
arguments and state, and it runs forever if the object does (as long as the object does not get stuck).

Partial: `Checked` is assumed and not proved for the schedules and analyses of the compiler; variables that are stored in memory are excluded by it. -/
theorem whole_compiler_partial {C : Type} [Nonempty C] {names order : List String} {O : Obj} {dec : String → String × Option (List String)}
    {I : Interp Nat (Loc → C)} {arity : String → Nat} {val : Nat → Nat} {main : String} (K : Compilable names O) (ho : CalleesFirst O order)
    (hE : Ending names O) (hI : OpsOk names dec I O) (hm : main ∉ names ++ Lower.haltOps) (he : Emittable dec I arity names O)
    (hval : TagMeaning I val) (hnum : ∀ n, I.num n = n) :
    ∃ names' O' T, frontEnd names order O = some (names', O', T) ∧ (∀ f, f ∈ names' ↔ f ∈ names ∧ ¬ CalledOnce O f) ∧
      (∀ f, f ∈ names' ↔ ∃ F, O'.fns f = some F) ∧
      ∀ (A : Option String → Analysis) (sched : String → String → List String) (fuel : Nat), Checked (toProg names' dec main A O') I sched →
        (∀ f F, (toProg names' dec main A O').fns f = some F → F.graph.blocks.length ≤ fuel) →
        ∃ code, assemble (toProg names' dec main A O') names' (tagOf T) sched fuel = some code ∧ AssemblyLike I dec arity code O := by
  obtain ⟨O1, p1, p2, p3, p4, p5, p6⟩ := preprocessed_lowerable K ho
  obtain ⟨O', T, f2t, H, h1, hv⟩ := lower_deco p4
  have hI' := ops_after p5 hI
  have hm' : main ∉ (names.filter fun f => (O1.fns f).isSome) ++ Lower.haltOps := by
    intro h2
    rcases mem_append.1 h2 with h3 | h3
    · exact hm (mem_append.2 (Or.inl (mem_filter.1 h3).1))
    · exact hm (mem_append.2 (Or.inr h3))
  have hr := ready_of_inv hv hI' hm'
  refine ⟨_, O', T, by unfold frontEnd; rw [p1, Option.bind_some, h1]; rfl, ?_, ?_, ?_⟩
  · intro f
    rw [mem_filter]
    refine and_congr_right fun hf => ?_
    rw [← p3 f hf]
    exact Option.isSome_iff_ne_none
  · intro f
    rw [hr.parts.fns f]
    constructor
    · rintro ⟨F, hF⟩
      obtain ⟨F', hF', -⟩ := hr.deco.some (some f) F hF
      exact ⟨F', hF'⟩
    · rintro ⟨F', hF'⟩
      cases hF : H.fns f with
      | some F => exact ⟨F, rfl⟩
      | none =>
        have := hr.deco.none (some f) hF
        rw [show O'.comp (some f) = O'.fns f from rfl, hF'] at this
        cases this
  intro A sched fuel hc hfuel
  refine lowered_assembly hv hr (K.nodup.filter _) (hv.fine (p6 hE)) (emittable_after p5 hI he) hval hnum hc fuel hfuel fun w => ?_
  obtain ⟨n', O2, T2, g1, -, g2⟩ := front_end_preserves K ho
  have g1' : frontEnd names order O = some (names.filter fun f => (O1.fns f).isSome, O', T) := by unfold frontEnd; rw [p1, Option.bind_some, h1]; rfl
  rw [g1'] at g1
  cases g1
  exact g2 _ _ I dec main A hI hm w

end Grey.Whole
