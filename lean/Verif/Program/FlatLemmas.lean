/-
The assembly of a component: the items of its blocks and their order.
-/
import Verif.Program.Flat
import Verif.Program.Emit
namespace Grey.Program
open List Grey.Layout Grey.Sfs Grey.SymExec Grey.Output

/-- The items for the end of a block. -/
def LastItems (P : Prog) (F : Fn) (B : LBlock) (last : List Asm) : Prop :=
  match P.exit F B with
  | .fall => last = []
  | .jump | .call _ | .ret => ∃ j, last = [⟨"JUMP", none, j⟩]
  | .branch => last = [⟨"JUMPI", none, none⟩]
  | .halt => last = ((F.split B.id).map fun (i : Ins) => (⟨i.name, none, none⟩ : Asm)).toList

/-- Items that lie somewhere in the code take one stack and world to another. -/
def SegRun {V σ : Type} (I : Interp V σ) (arity : String → Nat) (seg : List Asm) (st : List V) (w : σ) (st' : List V) (w' : σ) : Prop :=
  ∀ (code : List Asm) (pc : Nat), (∀ i < seg.length, code[pc + i]? = seg[i]?) →
    FRuns code I arity ⟨pc, st, w⟩ seg.length (.inl ⟨pc + seg.length, st', w'⟩)

/-- The code of a block: the items of its schedule. -/
def flatCode {V σ : Type} (P : Prog) (I : Interp V σ) (arity : String → Nat) (sched : String → String → List String) (f b : String) :
    Option (GCode V σ) :=
  (P.fns f).bind fun F => (F.graph.block b).bind fun B => (builtOf P f b).bind fun built =>
    (asmFromIds built.entries (sched f b)).map fun seg => ⟨SegRun I arity seg, P.last F B⟩

/-- The assembly of every block: the items of its schedule and those of its end; none of the items of the schedule is a tag, and
a block that falls through has a tag or an item. -/
def ItemsOk {V σ : Type} (P : Prog) (I : Interp V σ) (arity : String → Nat) (names : List String) (tags : String → Option Nat)
    (sched : String → String → List String) : Prop :=
  ∀ f F, P.fns f = some F → ∀ B ∈ F.graph.blocks, ∃ seg last,
    outBlocks P names tags sched f B.id = some ⟨seg ++ last, (tags B.id).map toString, exitOf B⟩ ∧ LastItems P F B last ∧
    (P.exit F B = .fall → tags B.id ≠ none ∨ seg ≠ []) ∧ (∀ a ∈ seg, a.name ≠ "tag") ∧
    flatCode P I arity sched f B.id = some ⟨SegRun I arity seg, P.last F B⟩

/-- The blocks can be put into an order, and end as their types say. -/
structure PlaceOk (P : Prog) (arity : String → Nat) (F : Fn) : Prop where
  place : Placeable F.graph
  ends : ∀ B ∈ F.graph.blocks, EndOk P arity F B

theorem prefix_upper {p : String} {i : Ins} (h : p.toList.isPrefixOf i.op.toList = true) : (p.map Char.toUpper).toList <+: i.name.toList := by
  obtain ⟨t, ht⟩ := isPrefixOf_iff_prefix.1 h
  unfold Ins.name
  rw [String.toList_map, String.toList_map, ← ht, map_append]
  exact prefix_append _ _

section
variable {V σ : Type} {P : Prog} {I : Interp V σ} {dest : V → Option (String × String)} {names : List String}
  {tags : String → Option Nat} {arity : String → Nat}

theorem last_items (ht : TagsOk P I dest names tags) {f : String} {F : Fn} (ok : FnOk P I dest f F) {B : LBlock} (hB : B ∈ F.graph.blocks)
    (he : EndOk P arity F B) : ∃ last, splitItems (fun g => decide (g ∈ names)) (F.split B.id) = some last ∧ LastItems P F B last := by
  unfold EndOk at he
  unfold LastItems splitItems
  cases hs : F.split B.id with
  | none =>
    refine ⟨[], rfl, ?_⟩
    have : P.exit F B = .fall ∨ P.exit F B = .halt := by
      unfold Prog.exit
      rw [hs]
      simp only
      split <;> simp
    rcases this with h | h <;> rw [h] <;> simp
  | some i =>
    have hex : P.exit F B = (if i.op = "JUMP" then .jump else if i.op = "JUMPI" then .branch
      else if i.op = "functionReturn" then .ret else if (P.fns i.op).isSome then .call i.op else .halt) := by
      unfold Prog.exit
      rw [hs]
    rw [hs] at he
    simp only [Option.map_some, Option.toList_some, Option.bind_some] at he ⊢
    by_cases h1 : i.op = "JUMP"
    · rw [if_pos h1] at hex
      rw [hex] at he ⊢
      refine ⟨[⟨"JUMP", none, none⟩], ?_, none, rfl⟩
      unfold asmForSplit
      have hnot : decide (i.op ∈ names) = false := by
        rw [decide_eq_false_iff_not]
        intro hm
        exact ht.plain _ hm (by rw [h1]; simp)
      simp only [hnot, Bool.false_eq_true, if_false]
      rw [if_neg (by rw [h1]; decide), if_neg (by rw [h1]; decide), if_neg (by rw [h1]; decide)]
      have : i.name = "JUMP" := by unfold Ins.name; rw [h1]; decide +kernel
      rw [this, he.2.2]
      rfl
    rw [if_neg h1] at hex
    by_cases h2 : i.op = "JUMPI"
    · rw [if_pos h2] at hex
      rw [hex] at he ⊢
      refine ⟨[⟨"JUMPI", none, none⟩], ?_, rfl⟩
      unfold asmForSplit
      have hnot : decide (i.op ∈ names) = false := by
        rw [decide_eq_false_iff_not]
        intro hm
        exact ht.plain _ hm (by rw [h2]; simp)
      simp only [hnot, Bool.false_eq_true, if_false]
      rw [if_neg (by rw [h2]; decide), if_neg (by rw [h2]; decide), if_neg (by rw [h2]; decide)]
      have : i.name = "JUMPI" := by unfold Ins.name; rw [h2]; decide +kernel
      rw [this, he.2.2]
      rfl
    rw [if_neg h2] at hex
    by_cases h3 : i.op = "functionReturn"
    · rw [if_pos h3] at hex
      rw [hex]
      refine ⟨[⟨"JUMP", none, some "[out]"⟩], ?_, _, rfl⟩
      unfold asmForSplit
      have hnot : decide (i.op ∈ names) = false := by
        rw [decide_eq_false_iff_not]
        intro hm
        exact ht.plain _ hm (by rw [h3]; simp)
      simp only [hnot, Bool.false_eq_true, if_false, if_pos h3]
      rfl
    rw [if_neg h3] at hex
    by_cases h4 : (P.fns i.op).isSome = true
    · rw [if_pos h4] at hex
      obtain ⟨G, hG⟩ := Option.isSome_iff_exists.1 h4
      have hmain := (ok.calls B hB i.op G hex hG).1
      rw [hex]
      refine ⟨[⟨"JUMP", none, some "[in]"⟩], ?_, _, rfl⟩
      unfold asmForSplit
      have : decide (i.op ∈ names) = true := by
        rw [decide_eq_true_iff]
        exact (ht.functions _).2 ⟨hmain, h4⟩
      simp only [this, if_true]
      rfl
    · rw [if_neg h4] at hex
      rw [hex] at he ⊢
      simp only at he
      refine ⟨[⟨i.name, none, none⟩], ?_, rfl⟩
      unfold asmForSplit
      have hnot : decide (i.op ∈ names) = false := by
        rw [decide_eq_false_iff_not]
        intro hm
        exact h4 ((ht.functions _).1 hm).2
      have hno : ∀ p ∈ ["verbatim", "assignimmutable"], ¬ p.toList.isPrefixOf i.op.toList = true := by
        intro p hp hpre
        have key : ∀ nm ∈ haltOps, ∀ p ∈ ["verbatim", "assignimmutable"], ¬ (p.map Char.toUpper).toList <+: nm.toList := by
          decide +kernel
        exact key _ he.2.2.2.1 _ hp (prefix_upper hpre)
      simp only [hnot, Bool.false_eq_true, if_false, if_neg h3]
      rw [if_neg (hno _ (by simp)), if_neg (hno _ (by simp)), he.2.2.2.2.1]
      rfl

end

section
variable {V σ : Type} {P : Prog} {I : Interp V σ} {dest : V → Option (String × String)} {names : List String}
  {tags : String → Option Nat} {arity : String → Nat} {sched : String → String → List String}

/-- The items of a block, from the items of its schedule. -/
theorem items_ok (ht : TagsOk P I dest names tags) {f : String} {F : Fn} (hF : P.fns f = some F) (ok : FnOk P I dest f F) {B : LBlock}
    (hB : B ∈ F.graph.blocks) (hend : EndOk P arity F B) {built : Built} (hbuilt : builtOf P f B.id = some built) {seg : List Asm}
    (hseg : asmFromIds built.entries (sched f B.id) = some seg) (hterm : B.jumpType = "terminal" → seg = [] → B.phis = [] ∧ F.instrs B.id = []) :
    F.graph.block B.id = some B ∧ ∃ last, outBlocks P names tags sched f B.id = some ⟨seg ++ last, (tags B.id).map toString, exitOf B⟩ ∧ LastItems P F B last := by
  have hBb : F.graph.block B.id = some B := by
    cases hc : F.graph.block B.id with
    | none =>
      have := find?_eq_none.1 hc B hB
      simp at this
    | some S' =>
      obtain ⟨h1, h2⟩ := block_some hc
      rw [same_id ok.wf h1 hB h2]
  obtain ⟨last, hl1, hl2⟩ := last_items ht ok hB hend
  refine ⟨hBb, last, ?_, hl2⟩
  unfold outBlocks
  rw [hF, Option.bind_some, hBb, Option.bind_some, hbuilt, Option.bind_some]
  suffices blockItems (fun g => decide (g ∈ names)) F B built.entries (sched f B.id) = some (seg ++ last) by rw [this]; rfl
  unfold blockItems
  rw [hseg, Option.bind_some, hl1, Option.bind_some]
  unfold EndOk at hend
  by_cases hsub : B.jumpType = "sub_block"
  · rw [if_pos hsub, if_pos]
    cases hex : P.exit F B with
    | call g =>
      have hsp : ∃ i, F.split B.id = some i ∧ i.op = g ∧ (P.fns g).isSome := by
        unfold Prog.exit at hex
        cases hs : F.split B.id with
        | none => rw [hs] at hex; simp only at hex; split at hex <;> simp at hex
        | some i =>
          rw [hs] at hex
          simp only at hex
          split at hex
          · simp at hex
          split at hex
          · simp at hex
          split at hex
          · simp at hex
          split at hex
          · rename_i h4
            simp only [Exit.call.injEq] at hex
            subst hex
            exact ⟨i, rfl, rfl, h4⟩
          · simp at hex
      obtain ⟨i, hs, rfl, hG⟩ := hsp
      obtain ⟨G, hG'⟩ := Option.isSome_iff_exists.1 hG
      rw [hs]
      simp only [Option.any_some, decide_eq_true_eq]
      exact (ht.functions _).2 ⟨(ok.calls B hB _ G hex hG').1, hG⟩
    | fall => rw [hex, hsub] at hend; simp at hend
    | jump => rw [hex, hsub] at hend; simp at hend
    | branch => rw [hex, hsub] at hend; simp at hend
    | ret => rw [hex, hsub] at hend; simp at hend
    | halt => 
      rw [hex, hsub] at hend
      simp only at hend
      have := hend.2.2
      split at this <;> simp at this
  · rw [if_neg hsub]
    split
    · rename_i hc
      obtain ⟨rfl, hterm'⟩ := hc
      obtain ⟨hph, hins⟩ := hterm hterm' rfl
      rw [hph, hins]
      cases hs : F.split B.id with
      | some i => simp
      | none =>
        exfalso
        have : P.exit F B = .fall ∨ P.exit F B = .halt := by
          unfold Prog.exit
          rw [hs]
          simp only
          split <;> simp
        rcases this with he | he
        · rw [he, hterm'] at hend; simp at hend
        · rw [he, hterm', hs] at hend; simp at hend
    · rfl

end

section
variable {C : Type} [Nonempty C] {P : Prog} {I : Interp Nat (Loc → C)} (hnum : ∀ n, I.num n = n) {sched : String → String → List String}
  {dest : Nat → Option (String × String)} (hok : ∀ f F, P.fns f = some F → FnOk P I dest f F)
  (hacc : ∀ f F, P.fns f = some F → ∃ st, Accepted I (sched f) F st) {names : List String} {tags : String → Option Nat}
  {arity : String → Nat} (hflat : ∀ f F, P.fns f = some F → FlatOk P I arity tags (sched f) F) (ht : TagsOk P I dest names tags)

include hnum hok hacc hflat ht in
/-- The items of a block: those of its schedule and those of its end. -/
theorem block_out {f : String} {F : Fn} (hF : P.fns f = some F) {B : LBlock} (hB : B ∈ F.graph.blocks) :
    ∃ k seg last, compile P I sched f B.id = some k ∧ k.last = P.last F B ∧
      outBlocks P names tags sched f B.id = some ⟨seg ++ last, (tags B.id).map toString, exitOf B⟩ ∧ LastItems P F B last ∧
      (seg = [] ↔ ∀ s ∈ sched f B.id, s = "NOP") ∧ (∀ a ∈ seg, a.name ≠ "tag") ∧
      flatCode P I arity sched f B.id = some ⟨SegRun I arity seg, P.last F B⟩ ∧
      ∀ M M', Run k.tab k.sem k.ids M M' → SegRun I arity seg M.stack M.world M'.stack M'.world := by
  have ok := hok f F hF
  have fl := hflat f F hF
  obtain ⟨st, h⟩ := hacc f F hF
  obtain ⟨src, tgt, hspec⟩ := (layouts_cover ok.wf ok.one h.layouts).1 _ (fl.place.reach B hB)
  obtain ⟨hb, _, _⟩ := h.blocks B hB src tgt hspec
  obtain ⟨k, hk, hlast, hcomp, hn, built, hbuilt, hseq⟩ := compile_block hnum hF ok.wf ok.one h hB hspec
  have hBb : F.graph.block B.id = some B := by
    cases hc : F.graph.block B.id with
    | none =>
      have := find?_eq_none.1 hc B hB
      simp at this
    | some S' =>
      obtain ⟨h1, h2⟩ := block_some hc
      rw [same_id ok.wf h1 hB h2]
  have hk' : k = ⟨built.entries.map (·.instr), semOf I built.entries, sched f B.id, P.last F B⟩ := by
    unfold compile at hk
    rw [hF, Option.bind_some, hBb, Option.bind_some, hbuilt] at hk
    simpa using hk.symm
  subst hk'
  have hshape := built_shape I _ _ _ _ hb.block hb.interp built hseq hb.final (fun _ => 0) (fun _ => Classical.arbitrary C)
  rw [map_map] at hn
  have hrunseg := fun M M' (hr : Run (built.entries.map (·.instr)) (semOf I built.entries) (sched f B.id) M M') =>
    segment_runs (I := I) (arity := arity) hn (fun e he => (hshape e he).2.1)
      (fun e he => entry_item hb.block (fl.writable B hB) (hshape e he).1 (hshape e he).2.2) hr (fl.ids B hB)
  obtain ⟨slot', extra, hrun0, _⟩ := hcomp (fun _ => 0) (fun _ => Classical.arbitrary C) (fun _ => 0) []
  obtain ⟨seg, hseg, hnil, hnt, _⟩ := hrunseg _ _ hrun0
  obtain ⟨_, last, hout, hl2⟩ := items_ok (sched := sched) ht hF ok hB (fl.ends B hB) hbuilt hseg (fun h1 h2 => fl.terminal B hB h1 (hnil.1 h2))
  refine ⟨_, seg, last, hk, rfl, ?_, hl2, hnil, hnt, ?_, ?_⟩
  · exact hout
  · unfold flatCode
    rw [hF, Option.bind_some, hBb, Option.bind_some, hbuilt, Option.bind_some, hseg]
    rfl
  · intro M M' hr
    obtain ⟨seg', hseg', _, _, hrun⟩ := hrunseg M M' hr
    rw [hseg, Option.some.injEq] at hseg'
    subst hseg'
    exact hrun

include hnum hok hacc hflat ht in
theorem accepted_items : ItemsOk P I arity names tags sched := by
  intro f F hF B hB
  obtain ⟨k, seg, last, hk, hlast, hout, h1, h2, h3, h4, _⟩ := block_out hnum hok hacc hflat ht hF hB
  refine ⟨seg, last, hout, h1, ?_, h3, h4⟩
  intro hex
  rcases (hflat f F hF).nonempty B hB hex with h | ⟨s, hs, hne⟩
  · exact Or.inl h
  · exact Or.inr fun e => hne (h2.1 e s hs)

include hnum hok hacc hflat ht in
theorem accepted_flat : ∀ f F, P.fns f = some F →
    ∃ st, GCompiled P I (fun c w => w = c.world) (fun w w' => w' = w) (flatCode P I arity sched) f F st := by
  intro f F hF
  have ok := hok f F hF
  obtain ⟨st, comp⟩ := slot_compiled hok (accepted_compiled hnum hok hacc) f F hF
  refine ⟨st, comp.layouts, ?_, comp.copies, comp.fresh⟩
  intro B hB src tgt hspec
  obtain ⟨k, seg, last, hk, hlast, hout, h1, h2, h3, h4, h5⟩ := block_out hnum hok hacc hflat ht hF hB
  obtain ⟨k', hk', hlast', hrun⟩ := comp.code B hB src tgt hspec
  unfold slotCode at hk'
  rw [hk, Option.map_some, Option.some.injEq] at hk'
  subst hk'
  refine ⟨_, h4, rfl, ?_⟩
  intro c w hf hb hL env' hsame rest
  subst hL
  obtain ⟨m', extra, hr, hx, hlink⟩ := hrun c (fun _ => 0, c.world) hf hb rfl env' hsame rest
  refine ⟨m'.2, extra, h5 _ _ hr, hx, fun x hx => ?_⟩
  cases x with
  | inl c' => exact hlink _ hx
  | inr hl => exact hlink _ hx

end
end Grey.Program
