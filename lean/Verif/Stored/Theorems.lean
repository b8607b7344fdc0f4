/-
C68: the assembly of an object whose variables are partly kept in memory.
-/
import Verif.Stored.Emit
import Verif.Program.FlatTheorems
namespace Grey.Stored
open List Grey.Layout Grey.Sfs Grey.SymExec Grey.Program Grey.Repair Grey.Output

section
variable {C : Type} [Nonempty C] {I : Interp Nat (Loc → C)} (hnum : ∀ n, I.num n = n) {arity : String → Nat} (hmem : MemoryOk I arity)
  {L : Places} {P : Prog} (hplaces : PlacesOk P L)

include hnum hmem hplaces in
/-- The assembly of a block. -/
theorem stored_block {f b : String} {instrs : List Ins} {split : Option Ins} {src tgt : List String} {junk : Bool} {pids : List PId}
    {regs dups : List (String × (Nat × Nat))} {ops : List SOp} (h : BlockStored I L f b instrs split src tgt junk pids regs dups ops)
    (hw : ∀ i ∈ instrs, Writable I arity i) :
    ∃ built deps, buildSpec instrs split [] (substDuplicates src) tgt = some (built, deps) ∧ ∃ seg,
      asmFromIds built.entries (ops.flatMap SOp.texts) = some seg ∧ (seg = [] → ops.flatMap SOp.texts = []) ∧ (∀ a ∈ seg, a.name ≠ "tag") ∧
      ∀ (env : String → Nat) (w : Loc → C),
        (∀ i ∈ instrs, ∀ a, L.cell a → ∀ l, InCell a l → ¬ MayRead i.op (i.inArgs.map (I.read (blockRun I instrs env w).1)) l ∧
          ¬ MayWrite i.op (i.inArgs.map (I.read (blockRun I instrs env w).1)) l) →
        (∀ v a, SOp.store v a ∈ ops → I.read (blockRun I instrs env w).1 v < 2 ^ 256) →
        ∀ w', SameOutside L.cell w w' → (∀ p ∈ L.before f b, Holds I w' p.2 (I.read env p.1)) → ∀ rest, ∃ wf' extra,
          SegRun I arity seg ((substDuplicates src).map (I.read env) ++ rest) w'
            ((beforeSplit split tgt).map (I.read (blockRun I instrs env w).1) ++ extra ++ rest) wf' ∧
          (junk = false → extra = []) ∧ SameOutside L.cell (blockRun I instrs env w).2 wf' ∧
          (∀ p ∈ L.after f b, L.cell p.2 ∧ Holds I wf' p.2 (I.read (blockRun I instrs env w).1 p.1)) ∧
          ∀ a, L.cell a → a ∉ L.writes f → ∀ l, InCell a l → wf' l = w' l := by
  obtain ⟨built, deps, hbuild, hcheck, hana, st, K, hflow, hafter⟩ := h.accepted
  obtain ⟨cell, hemit⟩ := h.emitted
  refine ⟨built, deps, hbuild, ?_⟩
  have hseq : buildSequence instrs split [] (substDuplicates src) tgt = some built := by
    unfold buildSpec at hbuild
    obtain ⟨b, hb1, hbuild⟩ := Option.bind_eq_some_iff.1 hbuild
    simp only [Option.bind_eq_some_iff, Option.map_eq_some_iff, Prod.mk.injEq] at hbuild
    obtain ⟨_, _, _, _, _, _, _, _, _, _, _, _, _, _, rfl, _⟩ := hbuild
    exact hb1
  have hids : (built.entries.map (·.instr.id)).Nodup :=
    built_ids_nodup I _ _ _ _ h.block h.interp built hseq h.final (fun _ => 0) (fun _ => Classical.arbitrary C)
  have hshape := built_shape I _ _ _ _ h.block h.interp built hseq h.final (fun _ => 0) (fun _ => Classical.arbitrary C)
  unfold emitBlock at hemit
  obtain ⟨ops0, hops0, hops⟩ := Option.map_eq_some_iff.1 hemit
  -- the stack that `flow` finds
  have hcst : execIds (built.entries.map (·.instr)) (originals pids) built.src = some st := by
    have hfl := hflow
    rw [← hops, flow_append] at hfl
    obtain ⟨⟨zs, zK⟩, hz, hfl'⟩ := Option.bind_eq_some_iff.1 hfl
    have e : st = zs := flow_phis _ _ _ hfl'
    subst e
    exact flow_ids _ _ _ _ _ _ _ hops0 h.names hz
  have hgood := fun (env : String → Nat) (w : Loc → C) => compiled_block_good I hnum instrs split [] (substDuplicates src) tgt h.block h.interp h.local'
    built deps hbuild h.final env w (by simp) (hana env w) (semOf I built.entries) (semOf_entry I hids) _ junk hcheck
  have hctx : ∀ (_ : (semOf I built.entries).RespectsComm (built.entries.map (·.instr))), Ctx I arity built.entries := fun hc =>
    ⟨hids, fun e he => (hshape e he).2.1, fun e he => entry_item h.block hw (hshape e he).1 (hshape e he).2.2, hc⟩
  have hruns := fun (env : String → Nat) (w : Loc → C) (val : Var → Nat) (hc : (semOf I built.entries).RespectsComm (built.entries.map (·.instr)))
    (hg : Good (built.entries.map (·.instr)) (semOf I built.entries) val (originals pids) w (blockRun I instrs env w).2) =>
    flow_runs (hctx hc) hnum hmem (cells := L.cell) hplaces.apart ops built.src (unassigned instrs (L.before f b)) (st, K) w _ hflow
      (by rw [← hops, filterMap_append, phis_no_ids, append_nil]; exact good_ids cell pids ops0 w hops0 h.names hg) h.dup h.swap
  obtain ⟨val0, _, _, hcomm, _, _, hg0, _⟩ := hgood (fun _ => 0) (fun _ => Classical.arbitrary C)
  obtain ⟨seg, hseg, hnil, hnt, _⟩ := hruns _ _ val0 hcomm hg0
  refine ⟨seg, hseg, hnil, hnt, ?_⟩
  intro env w haway hbound w' hsame hbefore rest
  obtain ⟨val, cstack, hval, _, _, hex, hg, hsrc, htgt, htake, hjunk, hsem⟩ := hgood env w
  rw [hcst, Option.some.injEq] at hex
  subst hex
  obtain ⟨seg', hseg', _, _, hrun⟩ := hruns env w val hcomm hg
  rw [hseg, Option.some.injEq] at hseg'
  subst hseg'
  generalize hfin : (blockRun I instrs env w).1 = fin at *
  generalize hwf : (blockRun I instrs env w).2 = wf at *
  obtain ⟨wf', r1, r2, r3, r4⟩ := hrun (by
      intro u hu w1 w1' hs
      rcases hsem u hu with ⟨k, hk⟩ | ⟨i, hi, hk⟩
      · rw [hk, hk]
        exact ⟨rfl, hs, fun _ _ _ _ => rfl⟩
      · rw [hk, hk]
        have hread : ∀ l, MayRead i.op (i.inArgs.map (I.read fin)) l → w1 l = w1' l := by
          intro l hl
          exact (hs l fun a ha hin => (haway i hi a ha l hin).1 hl).symm
        refine ⟨(h.local'.result i hi fin w1 w1' hread).symm, ?_, ?_⟩
        · intro l hl
          exact (h.local'.written i hi fin w1 w1' hread l (hs l hl).symm).symm
        · intro a ha l hl
          exact h.local'.untouched i hi fin w1' l (haway i hi a ha l hl).2)
    (by
      intro v a hva
      obtain ⟨s1, s2, s3⟩ := h.stores v a hva
      exact ⟨hplaces.written f a s1, by rw [hval v s2]; exact hbound v a hva⟩) w' hsame (by
      intro p hp
      unfold unassigned at hp
      rw [mem_filter, decide_eq_true_eq] at hp
      obtain ⟨hp1, hp2⟩ := hp
      obtain ⟨k1, k2, k3⟩ := hplaces.known f b p hp1
      refine ⟨k1, ?_⟩
      rw [hval _ k2.notGen, read_proper k2, ← hfin, blockRun_notin _ _ _ _ hp2]
      have := hbefore p hp1
      rwa [read_proper k2] at this) rest
  refine ⟨wf', (st.drop built.tgt.length).map val, ?_, ?_, r2, ?_, ?_⟩
  · rw [hsrc] at r1
    rw [← htgt, ← map_append]
    nth_rewrite 1 [← htake]
    rw [take_append_drop]
    exact r1
  · intro hj
    rw [hjunk hj]
    simp
  · intro p hp
    obtain ⟨a1, a2, a3⟩ := hafter p hp
    obtain ⟨b1, b2⟩ := r3 p a1
    exact ⟨b1, by rwa [← hval _ a2]⟩
  · intro a ha hno l hl
    exact r4 a ha (fun v hv => hno (h.stores v a hv).1) l hl

end

/-! ### The state of the program and the memory of the machine -/

/-- The variables that the calls that have not returned still need are in their cells, and the function that runs does not write
those cells. -/
def FramesOk {C : Type} (P : Prog) (I : Interp Nat (Loc → C)) (L : Places) : String → List (Frame Nat) → (Loc → C) → Prop
  | _, [], _ => True
  | f, fr :: frames, w => (∃ F B, P.fns fr.fn = some F ∧ F.graph.block fr.block = some B ∧ P.exit F B = .call f) ∧
    (∀ p ∈ L.after fr.fn fr.block, p.2 ∉ L.writes f → L.cell p.2 ∧ Holds I w p.2 (I.read fr.env p.1)) ∧ FramesOk P I L fr.fn frames w

/-- The relation between a state of the program that is reached from `c0` and the memory of the machine. -/
def Related {C : Type} (P : Prog) (I : Interp Nat (Loc → C)) (L : Places) (c0 c : Config Nat (Loc → C)) (w : Loc → C) : Prop :=
  (∃ tr, Runs P I c0 tr (.inl c)) ∧ SameOutside L.cell c.world w ∧ (∀ p ∈ L.before c.fn c.block, Holds I w p.2 (I.read c.env p.1)) ∧
    FramesOk P I L c.fn c.frames w

section
variable {C : Type} [Nonempty C] {I : Interp Nat (Loc → C)} (hnum : ∀ n, I.num n = n) {arity : String → Nat} (hmem : MemoryOk I arity)
  {L : Places} {P : Prog} (hplaces : PlacesOk P L)

include hmem hplaces in
theorem frames_keep {w w' : Loc → C} : ∀ (frames : List (Frame Nat)) (f g : String), (∀ a ∈ L.writes g, a ∈ L.writes f) →
    (∀ a, L.cell a → a ∉ L.writes g → ∀ l, InCell a l → w' l = w l) → FramesOk P I L f frames w → FramesOk P I L f frames w' := by
  intro frames
  induction frames with
  | nil => intro f g _ _ _; trivial
  | cons fr frames ih =>
    intro f g hsub hsame h
    obtain ⟨⟨F, B, hF, hB, hex⟩, h2, h3⟩ := h
    obtain ⟨hBm, _⟩ := block_some hB
    refine ⟨⟨F, B, hF, hB, hex⟩, ?_, ?_⟩
    · intro p hp hno
      obtain ⟨k1, k2⟩ := h2 p hp hno
      refine ⟨k1, ?_⟩
      unfold Holds at k2 ⊢
      rw [← k2]
      exact hmem.loadLocal _ _ _ fun l hl => hsame _ k1 (fun hm => hno (hsub _ hm)) l hl
    · exact ih fr.fn g (fun a ha => hplaces.calls _ _ hF B hBm f hex a (hsub a ha)) hsame h3

theorem read_enter {S : LBlock} {k : Nat} {env : String → Nat} {v : String} (hv : Proper v) :
    I.read (enter I S.phis k env) v = I.read env (sourceOf S k v) := by
  rw [read_proper hv]
  unfold enter sourceOf
  cases S.phis.find? fun p => p.out == v with
  | none => rw [read_proper hv]
  | some p =>
    simp only
    cases p.args[k]? with
    | none => rw [Option.getD_none, read_proper hv]
    | some a => rfl

variable {dest : Nat → Option (String × String)} (hok : ∀ f F, P.fns f = some F → FnOk P I dest f F) {W : Written} {tags : String → Option Nat}
  (hst : ∀ f F, P.fns f = some F → ∃ st, StoredFn P I L W arity tags f F st) {names : List String} (ht : TagsOk P I dest names tags)

include hnum hmem hplaces hok hst in
theorem stored_code {f : String} {F : Fn} (hF : P.fns f = some F) {st : DState} (h : StoredFn P I L W arity tags f F st) {B : LBlock}
    (hB : B ∈ F.graph.blocks) {src tgt : List String} (hspec : (B.id, src, tgt) ∈ st.specs) :
    F.graph.block B.id = some B ∧ ∃ built seg, builtOf P f B.id = some built ∧ asmFromIds built.entries (W.sched f B.id) = some seg ∧
      (seg = [] → W.sched f B.id = []) ∧ (∀ a ∈ seg, a.name ≠ "tag") ∧
      flatCode P I arity W.sched f B.id = some ⟨SegRun I arity seg, P.last F B⟩ ∧
      ∀ (env : String → Nat) (w : Loc → C),
        (∀ i ∈ F.instrs B.id, ∀ a, L.cell a → ∀ l, InCell a l → ¬ MayRead i.op (i.inArgs.map (I.read (blockRun I (F.instrs B.id) env w).1)) l ∧
          ¬ MayWrite i.op (i.inArgs.map (I.read (blockRun I (F.instrs B.id) env w).1)) l) →
        (∀ v a, SOp.store v a ∈ W.ops f B.id → I.read (blockRun I (F.instrs B.id) env w).1 v < 2 ^ 256) →
        ∀ w', SameOutside L.cell w w' → (∀ p ∈ L.before f B.id, Holds I w' p.2 (I.read env p.1)) → ∀ rest, ∃ wf' extra,
          SegRun I arity seg ((substDuplicates src).map (I.read env) ++ rest) w'
            ((beforeSplit (F.split B.id) tgt).map (I.read (blockRun I (F.instrs B.id) env w).1) ++ extra ++ rest) wf' ∧
          (F.graph.canJunk B.id = false → extra = []) ∧ SameOutside L.cell (blockRun I (F.instrs B.id) env w).2 wf' ∧
          (∀ p ∈ L.after f B.id, L.cell p.2 ∧ Holds I wf' p.2 (I.read (blockRun I (F.instrs B.id) env w).1 p.1)) ∧
          ∀ a, L.cell a → a ∉ L.writes f → ∀ l, InCell a l → wf' l = w' l := by
  have ok := hok f F hF
  obtain ⟨hb, _, _⟩ := h.blocks B hB src tgt hspec
  obtain ⟨built, deps, hbuild, seg, s1, s2, s3, s4⟩ := stored_block hnum hmem hplaces hb (h.writable B hB)
  have hBb : F.graph.block B.id = some B := by
    cases hc : F.graph.block B.id with
    | none =>
      have := find?_eq_none.1 hc B hB
      simp at this
    | some S' =>
      obtain ⟨h1, h2⟩ := block_some hc
      rw [same_id ok.wf h1 hB h2]
  have hlk : st.specs.lookup B.id = some (src, tgt) := by
    have hn := (layouts_cover ok.wf ok.one h.layouts).2.1
    generalize st.specs = l at hn hspec
    induction l with
    | nil => simp at hspec
    | cons p l ih =>
      rw [map_cons, nodup_cons] at hn
      rcases mem_cons.1 hspec with rfl | hm
      · simp
      · have : B.id ≠ p.1 := fun e => hn.1 (by rw [← e]; exact mem_map.2 ⟨_, hm, rfl⟩)
        rw [lookup_cons, show (B.id == p.1) = false by simpa using this]
        exact ih hn.2 hm
  have hof : builtOf P f B.id = some built := by
    unfold builtOf
    rw [hF, Option.bind_some, h.layouts]
    simp only [Except.toOption, Option.bind_some]
    rw [hlk, Option.bind_some, hbuild]
    rfl
  refine ⟨hBb, built, seg, hof, s1, s2, s3, ?_, s4⟩
  unfold flatCode
  rw [hF, Option.bind_some, hBb, Option.bind_some, hof, Option.bind_some]
  unfold Written.sched
  rw [s1]
  rfl

include hnum hmem hplaces hok hst ht in
theorem stored_items : ItemsOk P I arity names tags W.sched := by
  intro f F hF B hB
  have ok := hok f F hF
  obtain ⟨st, h⟩ := hst f F hF
  obtain ⟨src, tgt, hspec⟩ := (layouts_cover ok.wf ok.one h.layouts).1 _ (h.place.reach B hB)
  obtain ⟨_, built, seg, hof, s1, s2, s3, s4, _⟩ := stored_code hnum hmem hplaces hok hst hF h hB hspec
  obtain ⟨_, last, hout, hl⟩ := items_ok (sched := W.sched) ht hF ok hB (h.ends B hB) hof s1 (fun h1 h2 => h.terminal B hB h1 (s2 h2))
  refine ⟨seg, last, hout, hl, ?_, s3, s4⟩
  intro hex
  rcases h.nonempty B hB hex with h' | h'
  · exact Or.inl h'
  · exact Or.inr fun e => h' (s2 e)

include hnum hmem hplaces hok hst in
/-- The assembly of the blocks keeps the relation. -/
theorem stored_compiled {c0 : Config Nat (Loc → C)} (haway : ∀ tr c, Runs P I c0 tr (.inl c) → KeepsAway P I L W c) :
    ∀ f F, P.fns f = some F →
      ∃ st, GCompiled P I (Related P I L c0) (SameOutside L.cell) (flatCode P I arity W.sched) f F st := by
  intro f F hF
  have ok := hok f F hF
  obtain ⟨st, h⟩ := hst f F hF
  refine ⟨st, h.layouts, ?_, fun B hB src tgt hs => (h.blocks B hB src tgt hs).2.1, fun B hB src tgt hs => (h.blocks B hB src tgt hs).2.2⟩
  intro B hB src tgt hspec
  obtain ⟨hBb, built, seg, hof, s1, s2, s3, s4, s5⟩ := stored_code hnum hmem hplaces hok hst hF h hB hspec
  refine ⟨_, s4, rfl, ?_⟩
  intro c w' hcf hcb hL env' hsame rest
  obtain ⟨⟨tr, hr⟩, hout, hbefore, hframes⟩ := hL
  subst hcf
  rw [hcb] at hbefore
  obtain ⟨k1, k2⟩ := haway tr c hr F B hF (by rw [hcb]; exact hBb)
  obtain ⟨hfsame, hfworld⟩ := blockRun_same (I := I) (ok.namesIns B hB) hsame c.world
  obtain ⟨wf', extra, r1, r2, r3, r4, r5⟩ := s5 env' c.world (by
      intro i hi a ha l hl
      rw [← map_read_same hfsame (ok.namesIns B hB i hi)]
      exact k1 i hi a ha l hl) (by
      intro v a hva
      rw [← read_same hfsame ((h.blocks B hB src tgt hspec).1.stores v a hva).2.2]
      exact k2 v a hva) w' hout (by
      intro p hp
      rw [← read_same hsame (hplaces.known _ _ p hp).2.2]
      exact hbefore p hp) rest
  refine ⟨wf', extra, r1, r2, ?_⟩
  have hafter : ∀ p ∈ L.after c.fn B.id, L.cell p.2 ∧ Holds I wf' p.2 (I.read (blockRun I (F.instrs B.id) c.env c.world).1 p.1) := by
    intro p hp
    obtain ⟨g1, g2⟩ := r4 p hp
    obtain ⟨_, _, _, _, _, _, _, _, hK⟩ := (h.blocks B hB src tgt hspec).1.accepted
    refine ⟨g1, ?_⟩
    rw [read_same hfsame (hK p hp).2.2]
    exact g2
  rw [← hfworld] at r3
  have hfr : FramesOk P I L c.fn c.frames wf' := frames_keep hmem hplaces c.frames c.fn c.fn (fun _ h => h) r5 hframes
  clear k1 k2 r1 r4 hfworld s5
  intro x hx
  have hruns := runs_snoc hr hx
  unfold step at hx
  rw [hF] at hx
  simp only [Option.bind_some] at hx
  rw [hcb, hBb] at hx
  simp only [Option.bind_some] at hx
  generalize hfin : (blockRun I (F.instrs B.id) c.env c.world).1 = fin at *
  generalize hwfin : (blockRun I (F.instrs B.id) c.env c.world).2 = wfin at *
  have hgoto : ∀ (target : Option String), (∀ g, P.exit F B ≠ .call g) → (∀ n, target = some n → n ∈ B.succs) →
      (goto I c.fn F B target fin c.frames wfin).map Sum.inl = some x → Linked (Related P I L c0) (SameOutside L.cell) x wf' := by
    intro target _ hsucc hg
    obtain ⟨c', hg', rfl⟩ := Option.map_eq_some_iff.1 hg
    unfold goto at hg'
    obtain ⟨S, hS, rfl⟩ := Option.map_eq_some_iff.1 hg'
    obtain ⟨n, rfl, hS⟩ := Option.bind_eq_some_iff.1 hS
    obtain ⟨hSm, hSid⟩ := block_some hS
    subst hSid
    refine ⟨⟨_, hruns⟩, r3, ?_, hfr⟩
    intro p hp
    have hp' : p ∈ L.before c.fn S.id := hp
    simp only
    rw [read_enter (hplaces.known _ _ p hp').2.1]
    exact (hafter _ (hplaces.edges c.fn F hF B hB S hSm (hsucc _ rfl) p hp')).2
  have hfall : ∀ n, B.fallsTo = some n → n ∈ B.succs := fun n hn => by unfold LBlock.succs; rw [hn]; simp
  have hjump : ∀ n, B.jumpTo = some n → n ∈ B.succs := fun n hn => by unfold LBlock.succs; rw [hn]; simp
  cases hexit : P.exit F B with
  | fall =>
    rw [hexit] at hx
    exact hgoto _ (by rw [hexit]; simp) hfall hx
  | jump =>
    rw [hexit] at hx
    exact hgoto _ (by rw [hexit]; simp) hjump hx
  | branch =>
    rw [hexit] at hx
    simp only at hx
    split at hx
    · exact hgoto _ (by rw [hexit]; simp) hfall hx
    · exact hgoto _ (by rw [hexit]; simp) hjump hx
  | call g =>
    rw [hexit] at hx
    simp only at hx
    obtain ⟨G, hG, hx⟩ := Option.bind_eq_some_iff.1 hx
    split at hx
    · simp only [Option.some.injEq] at hx
      subst hx
      refine ⟨⟨_, hruns⟩, r3, ?_, ⟨F, B, hF, hBb, hexit⟩, ?_, hfr⟩
      · intro p hp
        have hp' : p ∈ L.before g G.graph.start := hp
        rw [hplaces.start g G hG] at hp'
        simp at hp'
      · intro p hp _
        exact hafter p hp
    · simp at hx
  | ret =>
    rw [hexit] at hx
    simp only at hx
    cases hfrs : c.frames with
    | nil => rw [hfrs] at hx; simp at hx
    | cons fr frames =>
      rw [hfrs] at hx hfr
      simp only at hx
      obtain ⟨⟨F2, B2, hF2, hB2, hex2⟩, hfr2, hfr3⟩ := hfr
      rw [hF2, Option.bind_some, hB2, Option.bind_some] at hx
      split at hx
      · obtain ⟨c', hg, rfl⟩ := Option.map_eq_some_iff.1 hx
        unfold goto at hg
        obtain ⟨S, hS, rfl⟩ := Option.map_eq_some_iff.1 hg
        obtain ⟨n, hn, hS⟩ := Option.bind_eq_some_iff.1 hS
        obtain ⟨hSm, hSid⟩ := block_some hS
        subst hSid
        obtain ⟨hBm2, hBid2⟩ := block_some hB2
        have hsucc : S.id ∈ B2.succs := by unfold LBlock.succs; rw [hn]; simp
        refine ⟨⟨_, hruns⟩, r3, ?_, hfr3⟩
        intro p hp
        have hp' : p ∈ L.before fr.fn S.id := hp
        obtain ⟨o1, o2⟩ := hplaces.over fr.fn F2 hF2 B2 hBm2 c.fn hex2 S hSm hsucc p hp'
        have he := hplaces.edges fr.fn F2 hF2 B2 hBm2 S hSm hsucc p hp'
        rw [hBid2] at he
        have := (hfr2 _ he o2).2
        simp only
        rw [read_enter (hplaces.known _ _ p hp').2.1]
        unfold Interp.read at this ⊢
        rw [assign_notin _ _ _ _ o1, hBid2]
        exact this
      · simp at hx
  | halt =>
    rw [hexit] at hx
    simp only [Option.some.injEq] at hx
    subst hx
    exact r3

theorem related_start {M : Fn} (hM : P.fns P.main = some M) (hplaces : PlacesOk P L) {env : String → Nat} {w w' : Loc → C} (hw : SameOutside L.cell w w') :
    Related P I L ⟨P.main, M.graph.start, env, [], w⟩ ⟨P.main, M.graph.start, env, [], w⟩ w' := by
  refine ⟨⟨[], .nil _⟩, hw, ?_, trivial⟩
  intro p hp
  have hp' : p ∈ L.before P.main M.graph.start := hp
  rw [hplaces.start _ _ hM] at hp'
  simp at hp'

include hnum hmem hplaces hok hst ht in
/-- **C68 (partial).** Take a program whose variables are partly kept in cells of memory: the schedules of its blocks with the loads
and stores that the reparation writes for them have been accepted, and the places of the variables are right (`PlacesOk`,
`BlockStored`). Then the object can be assembled, and whenever the program, in a run in which it keeps away from the cells, ends,
the assembly ends too, from every stack and with any content of the cells, with the same operation on the same
arguments, in a state that is the same outside the cells; and the assembly goes on as long as the program does.
Missing: that the reparation always finds places that are right (it does not, see C31 and C32). -/
theorem stored_assembly_runs_partial {M : Fn} (hM : P.fns P.main = some M) (fuel : Nat)
    (hfuel : ∀ f F, P.fns f = some F → F.graph.blocks.length ≤ fuel) :
    ∃ code, assemble P names tags W.sched fuel = some code ∧ ∀ (env : String → Nat) (w w' : Loc → C) (below : List Nat)
      (tr : List (String × String × (Loc → C))) (x : Config Nat (Loc → C) ⊕ Halted Nat (Loc → C)),
      (∀ tr c, Runs P I ⟨P.main, M.graph.start, env, [], w⟩ tr (.inl c) → KeepsAway P I L W c) → SameOutside L.cell w w' →
      Runs P I ⟨P.main, M.graph.start, env, [], w⟩ tr x →
        (∀ h, x = .inr h → ∃ n h', FRuns code I arity ⟨0, below, w'⟩ n (.inr h') ∧ h'.op = h.op ∧ h'.args = h.args ∧
          SameOutside L.cell h.world h'.world) ∧
        ∀ c, x = .inl c → ∃ n s, tr.length ≤ n ∧ FRuns code I arity ⟨0, below, w'⟩ n (.inl s) ∧ SameOutside L.cell c.world s.world := by
  have hitems := stored_items hnum hmem hplaces hok hst ht
  have hpl : ∀ f F, P.fns f = some F → PlaceOk P arity F := fun f F hF => by
    obtain ⟨st, h⟩ := hst f F hF
    exact ⟨h.place, h.ends⟩
  obtain ⟨all, h1, _⟩ := assemble_ok hok hitems hpl ht hM fuel hfuel
  refine ⟨_, h1, ?_⟩
  intro env w w' below tr x haway hw hr
  obtain ⟨code', hc', hfwd⟩ := flat_assembly_runs hok hitems hpl ht (stored_compiled hnum hmem hplaces hok hst haway) hM fuel hfuel
  rw [h1, Option.some.injEq] at hc'
  subst hc'
  obtain ⟨g1, g2⟩ := hfwd env w w' below tr x (related_start hM hplaces hw) hr
  refine ⟨g1, fun c hc => ?_⟩
  obtain ⟨n, s, a1, a2, a3⟩ := g2 c hc
  exact ⟨n, s, a1, a2, a3.2.1⟩

include hnum hmem hplaces hok hst ht in
/-- **C68 (partial)**, the other direction: if tags are unique, whatever the assembly ends with is what the program ends with,
unless the program has no next step. -/
theorem stored_assembly_only_runs_partial (hu : TagsUnique P I tags) {M : Fn} (hM : P.fns P.main = some M) (fuel : Nat)
    (hfuel : ∀ f F, P.fns f = some F → F.graph.blocks.length ≤ fuel) {code : List Asm} (hcode : assemble P names tags W.sched fuel = some code)
    (env : String → Nat) (w w' : Loc → C) (below : List Nat)
    (haway : ∀ tr c, Runs P I ⟨P.main, M.graph.start, env, [], w⟩ tr (.inl c) → KeepsAway P I L W c) (hw : SameOutside L.cell w w')
    {n : Nat} {h : Halted Nat (Loc → C)} (hr : FRuns code I arity ⟨0, below, w'⟩ n (.inr h)) :
    (∃ tr h', Runs P I ⟨P.main, M.graph.start, env, [], w⟩ tr (.inr h') ∧ h.op = h'.op ∧ h.args = h'.args ∧
      SameOutside L.cell h'.world h.world) ∨
    ∃ tr c, Runs P I ⟨P.main, M.graph.start, env, [], w⟩ tr (.inl c) ∧ step P I c = none := by
  have hitems := stored_items hnum hmem hplaces hok hst ht
  have hpl : ∀ f F, P.fns f = some F → PlaceOk P arity F := fun f F hF => by
    obtain ⟨st, h⟩ := hst f F hF
    exact ⟨h.place, h.ends⟩
  exact flat_assembly_only_runs hok hitems hpl ht (stored_compiled hnum hmem hplaces hok hst haway) hu hM fuel hfuel hcode env w w' below
    (related_start hM hplaces hw) hr

end
end Grey.Stored
