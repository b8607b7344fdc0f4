/-
C95: the compiler with its scheduler and the reparation, when the cells come from the scan of the dominance trees.
-/
import Verif.Whole.StoredPipeline
import Verif.Stored.Chosen
import Verif.Stored.Single
import Verif.Stored.BuildTree
import Verif.Stored.Once
import Verif.Stored.Addresses
import Verif.Layout.Origin
namespace Grey.Whole
open List Grey.Cfg Grey.Inline Grey.Lower Grey.Sfs Grey.Program Grey.SymExec Grey.Front Grey.Parser Grey.Stored Grey.Repair

/-! ### Specification -/

/-- What the compiler relies on without checking it, as in `Unensured`, and about the variables in memory: `R.reach` are the dictionaries of reachable variables (`reach`); the
variables stored in the blocks are those of the placement of stores in the trees `T` of dominators that the code builds (`tree`, `chosen`), which gives up none (`kept`, C31) and stores none in a block that ends
with a call (`nocall`, C32); and the components are in single assignment form (`single`); and the cells come from the scan of the trees and the base
addresses that the repair gives to the components one after the other (`driver`), with provisos (`uses`). -/
structure UnensuredPlaced {C : Type} (P : Prog) (I : Interp Nat (Loc → C)) (R : Choice) (sched : String → String → List String) (T : String → DTree String)
    (inLoop : String → String → String → Bool) (D : Kept.Driver) : Prop where
  one : ∀ f F, P.fns f = some F → Layout.OneJoin F.graph
  order : ∀ f F, P.fns f = some F → InOrder F.graph
  copies : ∀ f F, P.fns f = some F → ∀ st, Layout.drive F.graph = .ok st → ∀ B ∈ F.graph.blocks, ∀ src tgt, (B.id, src, tgt) ∈ st.specs →
    (Layout.substDuplicates src).Nodup
  deps : ∀ f F, P.fns f = some F → ∀ st, Layout.drive F.graph = .ok st → ∀ B ∈ F.graph.blocks, ∀ src tgt, (B.id, src, tgt) ∈ st.specs →
    ∀ built deps, buildSpec (F.instrs B.id) (F.split B.id) [] (Layout.substDuplicates src) tgt = some (built, deps) →
    ∀ env w, Sfs.Analysable (F.instrs B.id) built.positions built.unused (I.read (blockRun I (F.instrs B.id) env w).1)
  terminal : ∀ f F, P.fns f = some F → ∀ B ∈ F.graph.blocks, B.jumpType = "terminal" → (writtenBy R sched).sched f B.id = [] → B.phis = [] ∧ F.instrs B.id = []
  reach : ∀ f F, P.fns f = some F → ∀ st, Layout.drive F.graph = .ok st → ∀ B ∈ F.graph.blocks, ∀ src tgt, (B.id, src, tgt) ∈ st.specs →
    ∀ built deps, buildSpec (F.instrs B.id) (F.split B.id) [] (Layout.substDuplicates src) tgt = some (built, deps) →
    reachability 16 (built.entries.map (·.instr)) (sched f B.id) built.src (if B.jumpType = "sub_block" then (F.split B.id).map fun i => (i.inArgs, i.outArgs) else none) =
      some (R.reach f B.id)
  nocall : ∀ f F, P.fns f = some F → ∀ B ∈ F.graph.blocks, B.jumpType = "sub_block" → R.stores f B.id = []
  tree : ∀ f F, P.fns f = some F → Kept.BuiltTree F.graph (T f)
  chosen : ∀ f F, P.fns f = some F → Kept.Chosen (R.stores f) (T f) (Kept.placement (sched f) (R.reach f) (inLoop f) (T f)).1
  kept : ∀ f F, P.fns f = some F → ∀ v, (Kept.placement (sched f) (R.reach f) (inLoop f) (T f)).2 v = false
  distinct : ∀ f F, P.fns f = some F → ∀ B ∈ F.graph.blocks, (R.stores f B.id).Nodup
  sets : ∀ f F, P.fns f = some F → Kept.OwnSets (sched f) (R.stores f) (T f)
  single : ∀ f F, P.fns f = some F → Kept.Single F
  driver : D.Gives P (writtenBy R sched) T R.cell
  uses : Kept.Uses P (writtenBy R sched) R.cell T

/-! ### Proofs -/

theorem insertAll_reach : ∀ (vs : List String) (g g' : List PId × Reach), insertAll vs g = some g' → ∀ v ∈ vs, (g.2 v).isSome := by
  intro vs
  induction vs with
  | nil => intro g g' _ v hv; cases hv
  | cons u vs ih =>
    intro g g' h v hv
    rw [insertAll] at h
    obtain ⟨g1, h1, h2⟩ := Option.bind_eq_some_iff.1 h
    unfold insertDupVset at h1
    obtain ⟨e, he, rfl⟩ := Option.map_eq_some_iff.1 h1
    rcases mem_cons.1 hv with rfl | hv
    · rw [he]; rfl
    · simpa using ih _ _ h2 v hv

/-- The ids with the inserted stores run, and the stores duplicate their variables. -/
theorem placed_runs {R : Choice} {sched : String → String → List String} {f b : String} {tab : List UInstr} {src fin : List String} {g : List PId}
    (hg : placedIds R sched f b = some g) (hrun : execIds tab (sched f b) src = some fin)
    (hr : R.stores f b = [] ∨ reachability 16 tab (sched f b) src none = some (R.reach f b)) : 
    runP tab g src = some fin ∧ Kept.StoresRight tab src g ∧ ∀ v ∈ R.stores f b, ∃ p d q, g = p ++ .dupSet v d :: q ∧ ∀ s, PId.id s ∈ p → vgetOf s ≠ some v := by
  unfold placedIds at hg
  obtain ⟨r, hr1, rfl⟩ := Option.map_eq_some_iff.1 hg
  have key : R.stores f b = [] → runP tab r.1 src = some fin ∧ Kept.StoresRight tab src r.1 ∧
      ∀ v ∈ R.stores f b, ∃ p d q, r.1 = p ++ .dupSet v d :: q ∧ ∀ s, PId.id s ∈ p → vgetOf s ≠ some v := by
    intro h
    rw [show (∀ v ∈ R.stores f b, ∃ p d q, r.1 = p ++ .dupSet v d :: q ∧ ∀ s, PId.id s ∈ p → vgetOf s ≠ some v) ↔ True by simp [h], and_true]
    rw [h, insertAll, Option.some.injEq] at hr1
    subst hr1
    refine ⟨by rw [runP_ids]; exact hrun, ?_⟩
    intro p v d q hq
    have : PId.dupSet v d ∈ (sched f b).map PId.id := by
      rw [show (sched f b).map PId.id = p ++ .dupSet v d :: q from hq]
      simp
    obtain ⟨_, _, e⟩ := mem_map.1 this
    cases e
  rcases hr with h | h
  · exact key h
  · by_cases hvs : ∀ v ∈ R.stores f b, (R.reach f b v).isSome
    · obtain ⟨g', fin', g1, -, g3, g4, g5, g6, -⟩ := insertions_consistent_partial 16 tab _ src _ h _ hvs
      rw [hr1] at g1
      cases g1
      rw [hrun] at g3
      cases g3
      refine ⟨g4, fun p v d q hq => (g6 p v d q hq).1, ?_⟩
      intro v hv
      obtain ⟨d, hd⟩ := g5 v hv
      obtain ⟨p, q, hq⟩ := append_of_mem hd
      exact ⟨p, d, q, hq, (g6 p v d q hq).2⟩
    · exfalso
      apply hvs
      exact insertAll_reach _ _ _ hr1

/-- What the compiler has checked about every component, if it has written an assembly. -/
theorem compiled_facts {C : Type} [Nonempty C] {names order : List String} {O : Obj} {dec : String → String × Option (List String)}
    {I : Interp Nat (Loc → C)} {arity : String → Nat} {val : Nat → Nat} {main : String} (K : Compilable names O) (ho : CalleesFirst O order)
    (hE : Ending names O) (hI : OpsOk names dec I O) (hm : main ∉ names ++ Lower.haltOps) (he : Emittable dec I arity names O)
    (hval : TagMeaning I val) (hnum : ∀ n, I.num n = n) (hevm : EvmLike names dec I O) {ch : Option String → Choices} {junk : Option String → Bool}
    {guide : String → String → Guide} {R : Choice} {code : List Output.Asm} (hc : compileStored names order dec main ch junk guide R O = some code)
    {names' : List String} {O' : Obj} {T : List (String × Nat)} (h1 : frontEnd names order O = some (names', O', T))
    (hone : ∀ f F, (programOf names' dec main ch junk O').fns f = some F → Layout.OneJoin F.graph) :
    let P := programOf names' dec main ch junk O'
    let sched := scheduledIds P guide
    (∀ f, f ∈ main :: names' ↔ (P.fns f).isSome) ∧ ∀ f F, P.fns f = some F → Laid F ∧ repairsFn P R sched f = true ∧ ∃ st, Layout.drive F.graph = .ok st ∧
      (∀ B ∈ F.graph.blocks, ∃ src tgt built deps, (B.id, src, tgt) ∈ st.specs ∧ buildSpec (F.instrs B.id) (F.split B.id) [] (Layout.substDuplicates src) tgt = some (built, deps)) ∧
      ∀ B ∈ F.graph.blocks, ∀ src tgt, (B.id, src, tgt) ∈ st.specs → ∀ built deps, buildSpec (F.instrs B.id) (F.split B.id) [] (Layout.substDuplicates src) tgt = some (built, deps) →
        check ⟨built.entries.map (·.instr), built.src, built.tgt, deps⟩ (sched f B.id) (F.graph.canJunk B.id) = true ∧
        (∃ fin, execIds (built.entries.map (·.instr)) (sched f B.id) built.src = some fin) ∧ Kept.NamesOk (sched f B.id) := by
  obtain ⟨names2, O2, T2, g1, -, h2, -⟩ := whole_compiler_partial K ho hE hI hm he hval hnum
  rw [h1] at g1
  cases g1
  intro P sched
  have hfns : ∀ f F, P.fns f = some F → f ∈ main :: names' := by
    intro f F hF
    by_cases hf : f = main
    · exact mem_cons.2 (Or.inl hf)
    · have hF' : (if f = main then _ else (O'.fns f).map (toFn names' dec false _)) = some F := hF
      rw [if_neg hf] at hF'
      obtain ⟨C', hC', -⟩ := Option.map_eq_some_iff.1 hF'
      exact mem_cons_of_mem _ ((h2 f).2 ⟨C', hC'⟩)
  refine ⟨fun f => ⟨fun hf => ?_, fun hf => ?_⟩, ?_⟩
  · show (if f = main then _ else (O'.fns f).map (toFn names' dec false _) : Option Fn).isSome = true
    by_cases hfm : f = main
    · rw [if_pos hfm]; rfl
    · rw [if_neg hfm]
      obtain ⟨C', hC'⟩ := (h2 f).1 ((mem_cons.1 hf).resolve_left hfm)
      rw [hC']; rfl
  · obtain ⟨F, hF⟩ := Option.isSome_iff_exists.1 hf
    exact hfns f F hF
  unfold compileStored at hc
  rw [h1, Option.bind_some] at hc
  split at hc
  case isFalse => cases hc
  case isTrue hcomp =>
  dsimp only at hc
  split at hc
  case isFalse => cases hc
  case isTrue hacc =>
  rw [Bool.and_eq_true, all_eq_true, all_eq_true] at hacc
  obtain ⟨hacc, hrep⟩ := hacc
  rw [all_eq_true] at hcomp
  have hA : AnalysedBy ch junk O' fun c => (computed ch junk O' c).getD noAnalysis := by
    intro comp C' hC'
    have hmem : comp ∈ (none :: names'.map some : List (Option String)) := by
      cases comp with
      | none => exact mem_cons_self
      | some g => exact mem_cons_of_mem _ (mem_map.2 ⟨g, (h2 g).2 ⟨C', hC'⟩, rfl⟩)
    obtain ⟨a, ha'⟩ := Option.isSome_iff_exists.1 (hcomp comp hmem)
    have ha : computed ch junk O' comp = some a := ha'
    unfold computed at ha'
    rw [hC', Option.bind_some] at ha'
    rw [ha']
    beta_reduce
    rw [ha]
    rfl
  intro f F hF
  obtain ⟨O1, p1, p2, p3, p4, p5, p6⟩ := preprocessed_lowerable K ho
  obtain ⟨O2, T2, f2t, H, g1, hv⟩ := lower_deco p4
  have hm' : main ∉ (names.filter fun f => (O1.fns f).isSome) ++ Lower.haltOps := by
    intro h2
    rcases mem_append.1 h2 with h3 | h3
    · exact hm (mem_append.2 (Or.inl (mem_filter.1 h3).1))
    · exact hm (mem_append.2 (Or.inr h3))
  have hr := ready_of_inv hv (ops_after p5 hI) hm'
  have g : frontEnd names order O = some (names.filter fun f => (O1.fns f).isSome, O2, T2) := by unfold frontEnd; rw [p1, Option.bind_some, g1]; rfl
  have hknown := fun B hB => program_known K ho hE hI hm hevm h1 (A := fun c => (computed ch junk O' c).getD noAnalysis) hF (B := B) hB
  rw [h1] at g
  cases g
  obtain ⟨hok, hlaid⟩ := fn_laid hv hr (hv.fine (p6 hE)) (emittable_after p5 hI he) hval hA hF (hone f F hF)
  obtain ⟨st, hst, hblocks⟩ := acceptsFn_true hF (hacc f (hfns f F hF))
  have hnd := (Layout.layouts_cover hok.wf (hone f F hF) hst).2.1
  refine ⟨hlaid, hrep f (hfns f F hF), st, hst, ?_, ?_⟩
  · intro B hB
    obtain ⟨lay, built', deps', k1, k2, -⟩ := hblocks B hB
    exact ⟨lay.1, lay.2, built', deps', mem_of_lookup k1, k2⟩
  intro B hB src tgt hspec built deps hb
  obtain ⟨lay, built', deps', k1, k2, k3⟩ := hblocks B hB
  rw [lookup_mem hnd hspec] at k1
  cases k1
  rw [hb] at k2
  cases k2
  refine ⟨k3, ?_, ?_⟩
  · unfold check at k3
    cases e : execIds (built.entries.map (·.instr)) (sched f B.id) built.src with
    | none =>
      have e' : execIds (built.entries.map (·.instr)) (scheduledIds P guide f B.id) built.src = none := e
      simp only at k3
      rw [e'] at k3
      cases k3
    | some fin => exact ⟨fin, rfl⟩
  · intro s hs
    rcases scheduledIds_from (guide := guide) hF (hknown B hB) with e | ⟨tab, ht, hs'⟩
    · have e' : sched f B.id = [] := e
      rw [e'] at hs
      cases hs
    · exact (scheduled_stored ht (hs' s hs) (check_classified k3 s hs)).1

/-- **C95.** If the compiler writes an assembly for an object with the ids of its scheduler, the stores that the reparation inserts and the cells that its scan of the dominance trees
chooses, then the assembly does what the object does, up to what is in these cells, provided that what the compiler does not ensure holds (`UnensuredPlaced`), from states from which the
object does not get stuck and the program keeps away from the cells. Nothing is assumed about what is in memory where.

Partial: what the compiler does not ensure is assumed; no phi function is kept in memory. -/
theorem placed_like_source_partial {C : Type} [Nonempty C] {names order : List String} {O : Obj} {dec : String → String × Option (List String)}
    {I : Interp Nat (Loc → C)} {arity : String → Nat} {val : Nat → Nat} {main : String} (K : Compilable names O) (ho : CalleesFirst O order)
    (hE : Ending names O) (hI : OpsOk names dec I O) (hm : main ∉ names ++ Lower.haltOps) (he : Emittable dec I arity names O)
    (hval : TagMeaning I val) (hnum : ∀ n, I.num n = n) (hmem : MemoryOk I arity) (hevm : EvmLike names dec I O) {ch : Option String → Choices} {junk : Option String → Bool}
    {guide : String → String → Guide} {R : Choice} {code : List Output.Asm} (hc : compileStored names order dec main ch junk guide R O = some code) :
    ∃ names' O' tags, frontEnd names order O = some (names', O', tags) ∧ ∀ T inLoop D,
      UnensuredPlaced (programOf names' dec main ch junk O') I R (scheduledIds (programOf names' dec main ch junk O') guide) T inLoop D →
      let W := writtenBy R (scheduledIds (programOf names' dec main ch junk O') guide)
      let L := Kept.placesOf (programOf names' dec main ch junk O') W R.cell T (main :: names')
      ∀ w, ¬ Wrong (run (meaning I dec) (zeros I) O (w, none)) none →
        (∀ tr c, Program.Runs (programOf names' dec main ch junk O') I (entry I main O' w) tr (.inl c) → KeepsAway (programOf names' dec main ch junk O') I L W c) →
        SameBehaviour I arity code L.cell (fun h => ∃ s, Ends (run (meaning I dec) (zeros I) O (w, none)) none s ∧ haltedOf s = h) w := by
  obtain ⟨names', O', tags, h1, h2⟩ := stored_like_source_partial K ho hE hI hm he hval hnum hmem hevm hc
  refine ⟨names', O', tags, h1, ?_⟩
  intro T inLoop D hu W L
  let P := programOf names' dec main ch junk O'
  let sched := scheduledIds P guide
  obtain ⟨hf1, hf2⟩ := compiled_facts K ho hE hI hm he hval hnum hevm hc h1 hu.one
  have hstart : ∀ f F, P.fns f = some F → ∃ S ∈ F.graph.blocks, S.id = F.graph.start := by
    intro f F hF
    obtain ⟨S, hS, e, -⟩ := (hf2 f F hF).1.start
    exact ⟨S, hS, e⟩
  have hblock : ∀ f F, P.fns f = some F → ∀ st, Layout.drive F.graph = .ok st → ∀ B ∈ F.graph.blocks, ∀ src tgt, (B.id, src, tgt) ∈ st.specs →
      ∀ built deps, buildSpec (F.instrs B.id) (F.split B.id) [] (Layout.substDuplicates src) tgt = some (built, deps) →
      ∃ fin, runP (built.entries.map (·.instr)) (W.pids f B.id) built.src = some fin ∧ Kept.StoresRight (built.entries.map (·.instr)) built.src (W.pids f B.id) ∧
        Kept.NamesOk (originals (W.pids f B.id)) ∧ originals (W.pids f B.id) = sched f B.id ∧
        ∀ v ∈ R.stores f B.id, ∃ p d q, W.pids f B.id = p ++ .dupSet v d :: q ∧ ∀ s, PId.id s ∈ p → vgetOf s ≠ some v := by
    intro f F hF st hst B hB src tgt hspec built deps hb
    obtain ⟨-, hrep, st', hst', -, hblocks⟩ := hf2 f F hF
    rw [hst] at hst'
    cases hst'
    obtain ⟨-, ⟨fin, hfin⟩, hnames⟩ := hblocks B hB src tgt hspec built deps hb
    obtain ⟨-, k2⟩ := repaired_block hF hrep hB
    have hg : placedIds R sched f B.id = some (W.pids f B.id) := by
      unfold repairsFn at hrep
      rw [hF] at hrep
      obtain ⟨ops, ho⟩ := Option.isSome_iff_exists.1 (all_eq_true.1 hrep B hB)
      obtain ⟨g, hg, -⟩ := Option.bind_eq_some_iff.1 ho
      show _ = some ((placedIds R _ f B.id).getD [])
      rw [hg]
      rfl
    have hr : R.stores f B.id = [] ∨ reachability 16 (built.entries.map (·.instr)) (sched f B.id) built.src none = some (R.reach f B.id) := by
      by_cases hj : B.jumpType = "sub_block"
      · exact .inl (hu.nocall f F hF B hB hj)
      · have := hu.reach f F hF st hst B hB src tgt hspec built deps hb
        rw [if_neg hj] at this
        exact .inr this
    obtain ⟨r1, r2, r3⟩ := placed_runs hg hfin hr
    exact ⟨fin, r1, r2, by rw [k2]; exact hnames, k2, r3⟩
  have htree : ∀ f F, P.fns f = some F → Kept.TreeOf F.graph (T f) := fun f F hF => (hu.tree f F hF).treeOf (hstart f F hF)
  have hreads : ∀ f F, P.fns f = some F → ReadsStored (Kept.scanTree W T f) := by
    intro f F hF
    refine Kept.reads_stored ((htree f F hF).root ((htree f F hF).start (Kept.finite_edges (hstart f F hF))) |>.elim fun b e => ⟨_, b, e⟩)
      (hu.chosen f F hF) (hu.kept f F hF) ?_
    intro b hb
    obtain ⟨B, hB, rfl⟩ := Kept.tree_blocks (hstart f F hF) (htree f F hF) hb
    obtain ⟨-, -, st, hst, hspecs, -⟩ := hf2 f F hF
    obtain ⟨src, tgt, built, deps, q1, q2⟩ := hspecs B hB
    obtain ⟨-, -, -, -, k1, k2⟩ := hblock f F hF st hst B hB src tgt q1 built deps q2
    exact ⟨k1, k2⟩
  have honce : ∀ f F, P.fns f = some F → (allStores (Kept.scanTree W T f)).Nodup := by
    intro f F hF
    have hin : ∀ b ∈ nodes (T f), ∃ B ∈ F.graph.blocks, B.id = b := fun b hb => Kept.tree_blocks (hstart f F hF) (htree f F hF) hb
    refine Kept.stores_once_placed ((htree f F hF).root ((htree f F hF).start (Kept.finite_edges (hstart f F hF))) |>.elim fun b e => ⟨_, b, e⟩)
      (hu.chosen f F hF) ?_ (hu.sets f F hF) (fun _ _ => rfl) ?_
    · intro b hb
      obtain ⟨B, hB, rfl⟩ := hin b hb
      exact hu.distinct f F hF B hB
    · intro b hb
      obtain ⟨B, hB, rfl⟩ := hin b hb
      have hrep := (hf2 f F hF).2.1
      unfold repairsFn at hrep
      rw [hF] at hrep
      obtain ⟨ops, ho⟩ := Option.isSome_iff_exists.1 (all_eq_true.1 hrep B hB)
      obtain ⟨g, hg, -⟩ := Option.bind_eq_some_iff.1 ho
      obtain ⟨r, hr, rfl⟩ := Option.map_eq_some_iff.1 hg
      refine ⟨r, hr, ?_⟩
      show ((placedIds R _ f B.id).getD []).map readAs = _
      rw [hg]
      rfl
  have hplaced : Kept.Placed P W R.cell T D.base D.size := by
    refine ⟨Kept.arranged_of_tree (Kept.cells_of_driver hu.driver hu.uses honce) (fun f F hF => (hf2 f F hF).1) ?_ htree hreads ?_ hu.single, hreads⟩
    · intro f F hF B hB
      obtain ⟨-, -, st, hst, hspecs, -⟩ := hf2 f F hF
      obtain ⟨src, tgt, -, -, q1, -⟩ := hspecs B hB
      exact (Layout.layout_names (P := fun _ => True) ⟨by simp, by simp, by simp, by simp, by simp, by simp, by simp, trivial⟩ hst q1).2
    · intro f F hF
      obtain ⟨-, -, st, hst, hspecs, hall⟩ := hf2 f F hF
      refine ⟨st, hst, fun B hB => ?_⟩
      obtain ⟨src, tgt, built, deps, q1, q2⟩ := hspecs B hB
      obtain ⟨fin, k1, k2, k3, k4, -⟩ := hblock f F hF st hst B hB src tgt q1 built deps q2
      exact ⟨src, tgt, built, deps, q1, q2, by rw [k4]; exact (hall B hB src tgt q1 built deps q2).1, by rw [k1]; rfl, k2, k3⟩
  refine h2 L ⟨hu.one, hu.order, hu.copies, hu.deps, hu.terminal, ?_, ?_, ?_⟩
  · refine Kept.places_right hplaced (fun f F hF => (hf1 f).2 (by rw [hF]; rfl)) ?_ fun f hf => (hf1 f).1 hf
    intro f F hF B hB g hg
    unfold Prog.exit at hg
    split at hg
    · split at hg <;> cases hg
    · split at hg
      · cases hg
      · split at hg
        · cases hg
        · split at hg
          · cases hg
          · split at hg
            · rename_i h
              cases hg
              exact h
            · cases hg
  · intro f F hF st hst B hB src tgt hspec built deps hb
    obtain ⟨-, hrep, -⟩ := hf2 f F hF
    obtain ⟨fin, r1, r2, r3, -, -⟩ := hblock f F hF st hst B hB src tgt hspec built deps hb
    obtain ⟨K', k3, k4⟩ := Kept.block_right (fs := main :: names') hplaced hF hB r1 r2 r3 (repaired_block hF hrep hB).1
    exact ⟨fin, K', k3, k4⟩
  · intro f F hF B hB v a hm
    obtain ⟨-, hrep, -⟩ := hf2 f F hF
    exact Kept.stores_listed hplaced (fun f F hF => (hf1 f).2 (by rw [hF]; rfl)) hF hB (repaired_block hF hrep hB).1 v a hm

/-- **C95, documents.** As `placed_like_source_partial`, from the document that the compiler reads. -/
theorem placed_like_document_partial {C : Type} [Nonempty C] {J : JObj} {order : List String} {dec : String → String × Option (List String)} {I : Interp Nat (Loc → C)}
    {arity : String → Nat} {val : Nat → Nat} {main : String} (hJ : DocOk J) (hu : Underscores J) :
    ∃ O, parseObject J = some O ∧ (Compilable (J.functions.map (·.1)) O → CalleesFirst O order → Ending (J.functions.map (·.1)) O →
      OpsOk (J.functions.map (·.1)) dec I O → main ∉ J.functions.map (·.1) ++ Lower.haltOps → Emittable dec I arity (J.functions.map (·.1)) O →
      TagMeaning I val → (∀ n, I.num n = n) → MemoryOk I arity → EvmLike (J.functions.map (·.1)) dec I O →
      ∀ ch junk guide R code, compileStored (J.functions.map (·.1)) order dec main ch junk guide R O = some code →
        ∃ names' O' tags, frontEnd (J.functions.map (·.1)) order O = some (names', O', tags) ∧ ∀ T inLoop D,
          UnensuredPlaced (programOf names' dec main ch junk O') I R (scheduledIds (programOf names' dec main ch junk O') guide) T inLoop D →
          let W := writtenBy R (scheduledIds (programOf names' dec main ch junk O') guide)
          let L := Kept.placesOf (programOf names' dec main ch junk O') W R.cell T (main :: names')
          ∀ w, ¬ Wrong (jrun (meaning I dec) (zeros I) J (w, none)) none →
            (∀ tr c, Program.Runs (programOf names' dec main ch junk O') I (entry I main O' w) tr (.inl c) → KeepsAway (programOf names' dec main ch junk O') I L W c) →
            SameBehaviour I arity code L.cell (fun h => ∃ s, Ends (jrun (meaning I dec) (zeros I) J (w, none)) none s ∧ haltedOf s = h) w) := by
  obtain ⟨O, hO, hs⟩ := parsed_runs_partial hJ hu
  refine ⟨O, hO, ?_⟩
  intro K ho hE hI hm he hval hnum hmem hevm ch junk guide R code hc
  obtain ⟨names', O', tags, h1, h2⟩ := placed_like_source_partial K ho hE hI hm he hval hnum hmem hevm hc
  refine ⟨names', O', tags, h1, ?_⟩
  intro T inLoop D hun W L w hw haway
  have hsame := hs _ _ (meaning I dec) (zeros I) (w, none)
  have h5 := h2 T inLoop D hun w (fun h => hw (hsame.2.2 h)) haway
  have he : (fun h => ∃ s, Ends (run (meaning I dec) (zeros I) O (w, none)) none s ∧ haltedOf s = h) =
      fun h => ∃ s, Ends (jrun (meaning I dec) (zeros I) J (w, none)) none s ∧ haltedOf s = h := by
    funext h
    exact propext (exists_congr fun s => and_congr_left' (hsame.1 s).symm)
  rw [he] at h5
  exact h5

end Grey.Whole
