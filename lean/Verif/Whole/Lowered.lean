/-
From an object that can be lowered to assembly.
-/
import Verif.Whole.Flat
import Verif.Program.FlatTheorems
namespace Grey.Whole
open List Grey.Cfg Grey.Inline Grey.Lower Grey.Sfs Grey.Program Grey.SymExec

/-- A program that neither ends nor gets stuck runs for any number of blocks. -/
theorem runs_forever {V σ : Type} {P : Prog} {I : Interp V σ} {c : Program.Config V σ} (h1 : ¬ ∃ h tr, Program.Runs P I c tr (.inr h))
    (h2 : ¬ ∃ tr d, Program.Runs P I c tr (.inl d) ∧ Program.step P I d = none) : ∀ k, ∃ tr d, tr.length = k ∧ Program.Runs P I c tr (.inl d) := by
  have snoc : ∀ {c : Program.Config V σ} {tr : List (String × String × σ)} {y : Program.Config V σ ⊕ Halted V σ}, Program.Runs P I c tr y → ∀ d x, y = .inl d →
      Program.step P I d = some x → Program.Runs P I c (tr ++ [(d.fn, d.block, d.world)]) x := by
    intro c tr y hr
    induction hr with
    | nil c =>
      intro d x hd hs
      cases hd
      cases x with
      | inl c' => exact .cons hs (.nil _)
      | inr h => exact .halt hs
    | halt => intro d x hd; cases hd
    | cons hs _ ih => intro d x hd hs'; exact .cons hs (ih d x hd hs')
  intro k
  induction k with
  | zero => exact ⟨[], c, rfl, .nil _⟩
  | succ k ih =>
    obtain ⟨tr, d, hk, hr⟩ := ih
    cases hs : step P I d with
    | none => exact absurd ⟨tr, d, hr, hs⟩ h2
    | some x =>
      cases x with
      | inl d' => exact ⟨_, d', by simp [hk], snoc hr d _ rfl hs⟩
      | inr h => exact absurd ⟨h, _, snoc hr d _ rfl hs⟩ h1

section
variable {C : Type} [Nonempty C] {names : List String} {R : Option String → Option String} {f2t : List (String × Nat)} {T : TagDict} {O H O' : Obj}
  {dec : String → String × Option (List String)} {I : Interp Nat (Loc → C)} {main : String} {A : Option String → Analysis} {arity : String → Nat}
  {val : Nat → Nat} {sched : String → String → List String}

/-- The assembly of the program of a lowered object, for an object `S` that does the same as the program. -/
theorem lowered_assembly (hv : Inv names R f2t O (fun _ _ => False) H O' T) (hr : Ready names R T H O' dec I main) (hn : names.Nodup)
    (hF : ∀ c C, H.comp c = some C → FineComp names C) (he : Emittable dec I arity names O) (hval : TagMeaning I val) (hnum : ∀ n, I.num n = n)
    (hc : Checked (toProg names dec main A O') I sched) (fuel : Nat)
    (hfuel : ∀ f F, (toProg names dec main A O').fns f = some F → F.graph.blocks.length ≤ fuel) {S : Obj}
    (hS : ∀ w, RunsLike I dec (toProg names dec main A O') (entry I main O' w) S w) :
    ∃ code, assemble (toProg names dec main A O') names (tagOf T) sched fuel = some code ∧ AssemblyLike I dec arity code S := by
  have hok : ∀ f F, (toProg names dec main A O').fns f = some F → FnOk (toProg names dec main A O') I (destOf main H T val) f F := by
    intro f F hf
    refine fn_ok hv hr hF he hval hf (hc.one f F hf) ?_ (hc.live f F hf)
    intro hne b
    obtain ⟨comp, K, K', rfl, hK, -, -, rfl⟩ := prog_fn hr hf
    cases comp with
    | none => exact absurd rfl hne
    | some g => rfl
  have hflat : ∀ f F, (toProg names dec main A O').fns f = some F → FlatOk (toProg names dec main A O') I arity (tagOf T) (sched f) F := by
    intro f F hf
    refine ⟨hc.place f F hf, end_ok hv hr hF he hf, writable hv hr hF he hf, hc.ids f F hf, ?_, hc.terminal f F hf⟩
    intro B hB h
    exact absurd h (no_fall hr hf B hB)
  have ht := tags_ok (A := A) hv hr hn hval
  have hM : ∃ M, (toProg names dec main A O').fns (toProg names dec main A O').main = some M ∧ M.graph.start = O'.main.start.getD "" := by
    refine ⟨_, if_pos rfl, rfl⟩
  obtain ⟨M, hM, hstart⟩ := hM
  obtain ⟨code, hcode, hruns⟩ := assembly_runs_partial hnum hok hc.accepted hflat ht hM fuel hfuel
  refine ⟨code, hcode, fun w below hw => ?_⟩
  obtain ⟨hends, hwrong⟩ := hS w
  have hentry : entry I main O' w = ⟨(toProg names dec main A O').main, M.graph.start, fun _ => I.num 0, [], w⟩ := by
    unfold entry; rw [hstart]; rfl
  have hu := tags_unique (A := A) hv hr hval (w := w)
  refine ⟨fun h => ?_, fun hno k => ?_⟩
  · rw [← hends h]
    constructor
    · rintro ⟨n, hrun⟩
      rcases assembly_only_runs_partial hnum hok hc.accepted hflat ht hu hM fuel hfuel hcode (fun _ => I.num 0) w below hrun with h1 | h1
      · rw [hentry]; exact h1
      · rw [← hentry] at h1
        exact absurd (hwrong.1 h1) hw
    · rintro ⟨tr, hrun⟩
      rw [hentry] at hrun
      exact (hruns _ w below tr _ hrun).1 h rfl
  · have h1 : ¬ ∃ h tr, Program.Runs (toProg names dec main A O') I (entry I main O' w) tr (.inr h) := by
      rintro ⟨h, tr, hrun⟩
      obtain ⟨s, hs, _⟩ := (hends h).1 ⟨tr, hrun⟩
      exact hno ⟨s, hs⟩
    obtain ⟨tr, d, hk, hrun⟩ := runs_forever h1 (fun h => hw (hwrong.1 h)) k
    rw [hentry] at hrun
    obtain ⟨n, s, hn, hf, _⟩ := (hruns _ w below tr _ hrun).2 d rfl
    exact ⟨n, s, by omega, hf⟩

end
end Grey.Whole
