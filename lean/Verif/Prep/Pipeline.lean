/-
Renaming, inlining and combining in a row (src/cfg_methods/preprocessing_methods.py:18-36): C60.
-/
import Verif.Prep.RenameOk
import Verif.Prep.TidyAfter
import Verif.Inline.PassProof
namespace Grey.Prep
open List Grey.Cfg Grey.Inline

/-! ### Model -/

/-- src/cfg_methods/preprocessing_methods.py:18-36 for one object whose functions are `names` (in the order of the dictionary): rename
the variables, inline the functions that are called once, in the given order, and combine blocks. Combining sees the functions that
are still in the dictionary (src/cfg_methods/sub_block_generation.py:158). -/
def preprocess (names order : List String) (O : Obj) : Option Obj :=
  (inlinePass names order (renameObj names O)).bind fun O1 => combineObj (names.filter fun f => (O1.fns f).isSome) O1

/-! ### Proofs -/

section
variable {names order : List String} {O : Obj} (hfns : ∀ f, f ∈ names ↔ ∃ F, O.fns f = some F) (ok : SourceOk O)
include hfns ok

theorem rename_fns {f : String} : (∃ F, (renameObj names O).fns f = some F) ↔ ∃ F, O.fns f = some F := by
  have h : (renameObj names O).fns f = (O.fns f).map (renameComp (newNameOf names O (some f))) := (renaming_preserves hfns ok).2.2 (some f)
  rw [h]
  cases O.fns f <;> simp

theorem rename_calls {f : String} {c : Option String} {x : String} {j : Nat} : Calls (renameObj names O) f c x j ↔ Calls O f c x j := by
  have h := (renaming_preserves hfns ok).2.2 c
  constructor
  · rintro ⟨C', X', i', hC', hX', hj, ho⟩
    rw [h] at hC'
    obtain ⟨C, hC, rfl⟩ := Option.map_eq_some_iff.1 hC'
    obtain ⟨X, hX, rfl⟩ := rename_get hX'
    have hj' : (X.instrs.map (renameInstr (newNameOf names O c)))[j]? = some i' := hj
    rw [getElem?_map] at hj'
    obtain ⟨i, hi, rfl⟩ := Option.map_eq_some_iff.1 hj'
    exact ⟨C, X, i, hC, hX, hi, ho⟩
  · rintro ⟨C, X, i, hC, hX, hj, ho⟩
    refine ⟨_, renameBlock (newNameOf names O c) X, renameInstr (newNameOf names O c) i, by rw [h, hC]; rfl, ?_, ?_, ho⟩
    · exact get_renamed hX
    · show (X.instrs.map (renameInstr (newNameOf names O c)))[j]? = _
      rw [getElem?_map, hj]; rfl

theorem rename_once {f : String} : CalledOnce (renameObj names O) f ↔ CalledOnce O f := by
  unfold CalledOnce
  simp only [rename_calls hfns ok]

theorem rename_order (h : CalleesFirst O order) : CalleesFirst (renameObj names O) order := by
  refine ⟨h.nodup, fun f hf => (rename_fns hfns ok).2 (h.functions f hf), ?_, ?_, ?_⟩
  · intro f F c x j hF hc
    obtain ⟨F0, hF0⟩ := (rename_fns hfns ok).1 ⟨F, hF⟩
    exact h.called f F0 c x j hF0 ((rename_calls hfns ok).1 hc)
  · refine h.sorted.imp ?_
    intro g f hp h1 h2 x j
    rw [rename_calls hfns ok]
    exact hp ((rename_once hfns ok).1 h1) ((rename_once hfns ok).1 h2) x j
  · intro f hf x j
    rw [rename_calls hfns ok]
    exact h.noSelf f ((rename_once hfns ok).1 hf) x j

end

/-- All components are tidy, and no functions are added. -/
def AllTidy (P : String → Prop) (O : Obj) : Prop := (∀ c C, O.comp c = some C → Tidy C.body) ∧ ∀ f F, O.fns f = some F → P f

theorem tidy_kept (P : String → Prop) : Kept (AllTidy P) := by
  intro O O' h f H F s b k blk call G' S Sh A hq
  refine ⟨?_, ?_⟩
  · intro c C hC
    rcases S.comp_cases A hC with ⟨_, rfl⟩ | ⟨_, _, hC⟩
    · exact tidy_after S Sh (hq.1 h H S.comp) (hq.1 (some f) F S.fn)
    · exact hq.1 c C hC
  · intro g K hK
    obtain ⟨_, D, hD⟩ := S.fn_before A hK
    exact hq.2 g D hD

/-- **C60.** Renaming, inlining and combining in a row: no step fails, the object that results has the same executions as the one given,
and exactly the functions that are called once have disappeared. -/
theorem preprocessing_preserves {names order : List String} {O : Obj} (hnames : names.Nodup)
    (hfns : ∀ f, f ∈ names ↔ ∃ F, O.fns f = some F) (ok : SourceOk O) (tidy : ∀ c C, O.comp c = some C → Tidy C.body)
    (ho : CalleesFirst O order) :
    ∃ O', preprocess names order O = some O' ∧ SameRuns O O' ∧ ∀ f ∈ names, (O'.fns f = none ↔ CalledOnce O f) := by
  obtain ⟨r1, r2, r3⟩ := renaming_preserves hfns ok
  have hq : AllTidy (· ∈ names) (renameObj names O) := by
    refine ⟨?_, fun f F hF => (hfns f).2 ((rename_fns hfns ok).1 ⟨F, hF⟩)⟩
    intro c C' hC'
    rw [r3] at hC'
    obtain ⟨C, hC, rfl⟩ := Option.map_eq_some_iff.1 hC'
    exact rename_tidy (tidy c C hC)
  obtain ⟨O1, i1, i2, i3, i4, i5⟩ := inlining_pass_keeps (tidy_kept (· ∈ names)) r2 hq hnames (fun f => (hfns f).trans (rename_fns hfns ok).symm)
    (rename_order hfns ok ho)
  obtain ⟨O2, c1, c2, c3⟩ := combining_preserves (names := names.filter fun f => (O1.fns f).isSome) (O := O1) (hnames.filter _) (by
      intro f
      rw [mem_filter, Option.isSome_iff_exists]
      exact ⟨fun h => h.2, fun ⟨F, hF⟩ => ⟨i5.2 f F hF, F, hF⟩⟩)
    fun c C hC => ⟨(i3.comps c C hC).sane, i5.1 c C hC⟩
  refine ⟨O2, by unfold preprocess; rw [i1, Option.bind_some, c1], (r1.trans i2).trans c2, ?_⟩
  intro f hf
  rw [← rename_once hfns ok, ← i4 f hf]
  have h : (O2.fns f).map (·.args) = (O1.fns f).map (·.args) := (c3 (some f)).1
  constructor
  · intro h0; rw [h0] at h; simpa using h.symm
  · intro h0; rw [h0] at h; simpa using h

end Grey.Prep
