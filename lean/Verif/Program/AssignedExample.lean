/-
C88: an example.
-/
import Verif.Program.Assigned
import Verif.Program.Example
namespace Grey.Program
open List Grey.Layout Grey.Sfs Grey.SymExec

/-- The components of C53 are as C88 expects them. -/
theorem FnOk.laid {V σ : Type} {P : Prog} {I : Interp V σ} {dest : V → Option (String × String)} {f : String} {F : Fn} (h : FnOk P I dest f F) : Laid F :=
  ⟨h.wf, h.one, h.start, h.final, h.callJoin⟩

theorem Accepted.schedules {C : Type} {I : Interp Nat (Loc → C)} {sched : String → List String} {F : Fn} {st : DState} (h : Accepted I sched F st) :
    SchedulesAccepted F st sched := by
  intro B hB src tgt hs
  obtain ⟨built, deps, h1, h2, -⟩ := (h.blocks B hB src tgt hs).1.accepted
  exact ⟨⟨built, deps, h1, h2⟩, (h.blocks B hB src tgt hs).1.gets⟩

/-- In the program of C53, `q` is assigned on one of the two ways to the last block and is not on the stack with which this block starts; `r` is assigned on
every way to the block after the call and is on the stack with which it starts. -/
example : ∃ st, drive exMain.graph = .ok st ∧ SchedulesAccepted exMain st (exSched "main") ∧ Laid exMain ∧
    Unassigned exMain "q" "M2" ∧ (∀ src tgt, ("M2", src, tgt) ∈ st.specs → "q" ∉ src) ∧
    (∃ src tgt, ("M1", src, tgt) ∈ st.specs ∧ "r" ∈ src) ∧ ¬ Unassigned exMain "r" "M1" := by
  obtain ⟨st, hacc⟩ := exMain_accepted
  have ha := hacc.schedules
  have hl : Laid exMain := exMain_ok.laid
  have hq : Unassigned exMain "q" "M2" := by
    have h0 : Unassigned exMain "q" "Block0" := .start (S := ⟨"Block0", [], [], [], none, some "M1", "sub_block", "", ["r"], ["1", "v", "2"]⟩)
      (by decide +kernel) (by decide +kernel) (by decide +kernel) (by decide +kernel)
    have h1 : Unassigned exMain "q" "M1" := .edge (B := ⟨"Block0", [], [], [], none, some "M1", "sub_block", "", ["r"], ["1", "v", "2"]⟩)
      (S := ⟨"M1", ["Block0"], [], [], some "M3", some "M2", "conditional", "", [], ["3", "r"]⟩) h0
      (by decide +kernel) (by decide +kernel) (by decide +kernel) (by decide +kernel) (by decide +kernel) (by decide +kernel)
    exact .edge (B := ⟨"M1", ["Block0"], [], [], some "M3", some "M2", "conditional", "", [], ["3", "r"]⟩)
      (S := ⟨"M2", ["M1", "M3"], ["M1", "M3"], [⟨"p", ["r", "q"]⟩], none, none, "terminal", "", [], []⟩) h1
      (by decide +kernel) (by decide +kernel) (by decide +kernel) (by decide +kernel) (by decide +kernel) (by decide +kernel)
  have name : ∀ {v : String}, OkName v → Proper v ∧ ¬ Padding v := okName
  have hr : ∃ src tgt, ("M1", src, tgt) ∈ st.specs ∧ "r" ∈ src := by
    have : ((drive exMain.graph).toOption.bind fun st => st.specs.lookup "M1").any (fun l => decide ("r" ∈ l.1)) = true := by decide +kernel
    rw [hacc.layouts] at this
    change (st.specs.lookup "M1").any _ = true at this
    cases e : st.specs.lookup "M1" with
    | none => rw [e] at this; cases this
    | some l =>
      rw [e] at this
      exact ⟨l.1, l.2, lookup_some_mem e, by simpa using this⟩
  refine ⟨st, hacc.layouts, ha, hl, hq, ?_, hr, ?_⟩
  · intro src tgt hs hmem
    exact on_stack_assigned hl hacc.layouts ha (name (by decide +kernel)).1 (name (by decide +kernel)).2 hs hmem hq
  · obtain ⟨src, tgt, hs, hmem⟩ := hr
    exact on_stack_assigned hl hacc.layouts ha (name (by decide +kernel)).1 (name (by decide +kernel)).2 hs hmem

end Grey.Program
