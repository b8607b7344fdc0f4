/-
C69: a document with a subobject that meets the hypotheses.
-/
import Verif.Nested.Same
import Verif.Whole.DocumentExample
namespace Grey.Nested
open List Grey.Cfg Grey.Inline Grey.Prep Grey.Lower Grey.Program Grey.Parser Grey.Sfs Grey.SymExec Grey.Front Grey.Whole

def idleMain : BlockList :=
  { start := some "r_Block0", terminals := ["r_Block0"], blocks := [{ id := "r_Block0", jumpType := "terminal", instrs := [⟨"stop", [], []⟩] }] }

def idleObj : Obj := Obj.ofList idleMain []

theorem idle_ok : DocOk (idleDoc "r") := docOk_sound (by decide +kernel)

theorem idle_parsed : parseObject (idleDoc "r") = some idleObj := by
  rw [parseObject_eq idle_ok]
  refine congrArg some ?_
  have h1 : (parsedObj (idleDoc "r")).main = idleMain := by decide +kernel
  show parsedObj (idleDoc "r") = ⟨idleMain, fun f => none⟩
  rw [← h1]
  rfl

theorem idle_compilable : Compilable [] idleObj :=
  compilable_of_check (cert := fun _ => (fun _ => [], [])) (grp := fun _ _ => 0) (rank := fun _ _ => 0) (main := idleMain) (fns := []) (by decide +kernel)

theorem idle_order : CalleesFirst idleObj [] := order_of_check idle_compilable.source.comps (by decide +kernel)

theorem idle_code {c : Option String} {C : Cfg.Component} {x : String} {X : Block} (hC : idleObj.comp c = some C) (hX : C.body.get x = some X) :
    X = { id := "r_Block0", jumpType := "terminal", instrs := [⟨"stop", [], []⟩] } := by
  have h := mem_compsOf (main := idleMain) (fns := []) hC
  have : (compsOf idleMain []).all fun p => p.2.body.blocks.all fun Y => decide (Y = { id := "r_Block0", jumpType := "terminal", instrs := [⟨"stop", [], []⟩] }) := by
    decide +kernel
  simp only [all_eq_true, decide_eq_true_eq] at this
  exact this _ h X (get_mem hX)

theorem idle_instr {c : Option String} {C : Cfg.Component} {x : String} {X : Block} {i : Instr} (hC : idleObj.comp c = some C) (hX : C.body.get x = some X)
    (hi : i ∈ code X) : i = ⟨"stop", [], []⟩ := by
  rw [idle_code hC hX] at hi
  have : ∀ j ∈ code { id := "r_Block0", jumpType := "terminal", instrs := [⟨"stop", [], []⟩] }, j = ⟨"stop", [], []⟩ := by decide +kernel
  exact this i hi

/-- The order in which functions are visited. -/
def nestTopo (info : CallInfo) : List String := ["g", "h"].filter fun f => info f != []

theorem idle_topological : TopologicalOrder [] (callSites [] (renameObj [] idleObj)) (nestTopo (callSites [] (renameObj [] idleObj))) :=
  topological_of_check (by decide +kernel)

theorem idle_fit : Fit nestTopo whDec (evmTag whTag) exArity "main" (idleDoc "r") := by
  have hO : ∀ O, parseObject (idleDoc "r") = some O → O = idleObj := fun O h => by rw [idle_parsed] at h; exact (Option.some.inj h).symm
  refine ⟨idle_ok, underscores_sound (by decide +kernel), ?_, ?_, ?_, ?_, ?_, by decide +kernel, ?_, ⟨id, whTag_meaning⟩, fun _ => rfl⟩ <;>
    (intro O h; obtain rfl := hO O h)
  · exact idle_compilable
  · exact idle_topological
  · exact (notRecursive_of_check (order := []) (main := idleMain) (fns := []) idle_compilable.source.comps (by decide +kernel)).single
  · refine ⟨fun c C hC x X hX => ?_, fun c C hC x X hX hj => ?_, fun c C hC x X hX hj => ?_⟩ <;> rw [idle_code hC hX] at *
    · exact Or.inl rfl
    · exact Or.inr ⟨_, rfl, by decide⟩
    · exact absurd hj (by decide)
  · refine ⟨fun o _ => rfl, fun c C x X i hC hX hi ho => ?_, fun t w => by simp [evmTag]⟩
    rw [idle_instr hC hX hi] at ho
    exact absurd (by decide) ho
  · refine ⟨rfl, fun c C x X i hC hX hi ho => ?_, fun c C x X i hC hX hi ho => ?_, fun c C x X i hC hX hi ho => ?_⟩ <;> rw [idle_instr hC hX hi] at *
    · exact ⟨rfl, by decide +kernel⟩
    · exact absurd (by decide) ho

theorem wh_topo : nestTopo (callSites ["g", "h"] (renameObj ["g", "h"] whObj)) = ["g", "h"] := by decide +kernel

theorem wh_topological : TopologicalOrder ["g", "h"] (callSites ["g", "h"] (renameObj ["g", "h"] whObj))
    (nestTopo (callSites ["g", "h"] (renameObj ["g", "h"] whObj))) :=
  topological_of_check (by decide +kernel)

theorem wh_fit : Fit nestTopo whDec (evmTag whTag) exArity "main" whDoc := by
  have hO : ∀ O, parseObject whDoc = some O → O = whObj := fun O h => by rw [whDoc_parsed] at h; exact (Option.some.inj h).symm
  refine ⟨whDoc_ok, whDoc_results, ?_, ?_, ?_, ?_, ?_, by decide +kernel, ?_, ⟨id, whTag_meaning⟩, fun _ => rfl⟩ <;>
    (intro O h; obtain rfl := hO O h)
  · exact whObj_compilable
  · exact wh_topological
  · exact (notRecursive_of_check (order := ["g", "h"]) whObj_compilable.source.comps (by decide +kernel)).single
  · exact whObj_ending
  · exact whObj_ops
  · exact whObj_emittable

/-- The object `o` inside of an object `r`. -/
def nestDoc : Tree JObj := .node (idleDoc "r") [.node whDoc []]

def idleAna (_ : Option String) : Analysis where
  junk := true
  inLoop := fun _ => false
  liveIn := fun _ => []
  liveOut := fun _ => []
  depth := fun _ _ => [0]
  level := fun _ => some 0
  domPath := fun _ _ => none

/-- The analyses and schedules: those of the example of C67, and those of an object with a single block. -/
def nestPlan (u : CObj) : Plan :=
  if u.name = "o" then ⟨u, whDec, "main", whAna, whSched, 5⟩
  else ⟨u, whDec, "main", idleAna, fun _ _ => [], 1⟩

/-- The object `r` after the front end. -/
def idleLow : List String × Obj × TagDict := (frontEnd [] [] idleObj).getD ([], idleObj, [])

def idleProg : Prog := (nestPlan ⟨"r", idleLow.1, idleLow.2.1⟩).prog
def idleFn : Fn := (idleProg.fns "main").getD ⟨exMainGraph, fun _ => [], fun _ => none⟩

theorem idle_place : Placeable idleFn.graph where
  entry := ⟨"r_", "", by decide +kernel⟩
  known := by decide +kernel
  reach := by
    have : ∀ B ∈ idleFn.graph.blocks, B.id = idleFn.graph.start := by decide +kernel
    intro B hB
    rw [this B hB]
    exact .start
  oneFall := by
    have : ∀ B ∈ idleFn.graph.blocks, B.fallsTo = none := by decide +kernel
    intro B hB C hC d h
    rw [this B hB] at h
    simp at h
  noSelf := by decide +kernel
  condJump := by
    have : ∀ B ∈ idleFn.graph.blocks, B.fallsTo = none := by decide +kernel
    intro B hB j d _ h
    rw [this B hB] at h
    simp at h
  chain := by
    have : ∀ B ∈ idleFn.graph.blocks, B.fallsTo = none := by decide +kernel
    intro B hB C hC d h
    rw [this B hB] at h
    simp at h

theorem idle_checked (hfns : ∀ f F, idleProg.fns f = some F → f = "main" ∧ F = idleFn) : Checked idleProg (evmTag whTag) fun _ _ => [] := by
  refine ⟨?_, ?_, ?_, ?_, ?_, ?_⟩ <;> intro f F hF <;> obtain ⟨rfl, rfl⟩ := hfns f F hF
  · unfold Layout.OneJoin; decide +kernel
  · decide +kernel
  · exact idle_place
  · exact accepted_of (by decide +kernel) (by decide +kernel)
  · intro B _
    exact plain_ids (by decide)
  · intro B hB _ _
    have : ∀ B ∈ idleFn.graph.blocks, B.phis = [] ∧ idleFn.instrs B.id = [] := by decide +kernel
    exact this B hB

theorem idle_low : ∃ T, frontEnd [] [] idleObj = some (idleLow.1, idleLow.2.1, T) ∧ (∀ f, idleLow.2.1.fns f = none) ∧ idleLow.1 = [] := by
  have h0 : (frontEnd [] [] idleObj).isSome = true := by decide +kernel
  obtain ⟨q, hq⟩ := Option.isSome_iff_exists.1 h0
  have hl : idleLow = q := by unfold idleLow; rw [hq]; rfl
  obtain ⟨names', O', T, g1, -, g3, -⟩ := whole_compiler_partial (arity := exArity) idle_compilable idle_order (idle_fit.ending _ idle_parsed) (idle_fit.ops _ idle_parsed)
    (main := "main") (by decide +kernel) (idle_fit.emittable _ idle_parsed) whTag_meaning (fun _ => rfl)
  have e : q = (names', O', T) := Option.some.inj (hq.symm.trans g1)
  have hn : idleLow.1 = [] := by decide +kernel
  refine ⟨T, by rw [hl, e]; exact g1, ?_, hn⟩
  intro f
  rw [hl, e] at hn ⊢
  cases hf : O'.fns f with
  | none => rfl
  | some F =>
    have := (g3 f).2 ⟨F, hf⟩
    rw [show names' = [] from hn] at this
    cases this

theorem idle_fns : ∀ f F, idleProg.fns f = some F → f = "main" ∧ F = idleFn := by
  obtain ⟨T, -, h, -⟩ := idle_low
  intro f F hF
  by_cases hf : f = "main"
  · subst hf
    exact ⟨rfl, by unfold idleFn; rw [hF]; rfl⟩
  · exfalso
    have hF' := hF
    unfold idleProg Plan.prog nestPlan at hF'
    rw [if_neg (by decide)] at hF'
    unfold toProg at hF'
    simp only [if_neg hf, Option.map_eq_some_iff] at hF'
    obtain ⟨G, hG, -⟩ := hF'
    rw [h f] at hG
    cases hG

/-- The document meets the hypotheses of C69: the assembly is written, its code does what `r` says, and the code under the key `0` does what `o` says. -/
example : ∃ cs fs tags a b, parseDocs [nestDoc] = some cs ∧ frontDocs nestTopo cs = some (fs, tags) ∧ asmDocs tags (mapTs nestPlan fs) = some a ∧
    AssemblyOf (evmTag whTag) whDec exArity a.code (idleDoc "r") ∧ a.at [0] = some b ∧ AssemblyOf (evmTag whTag) whDec exArity b.code whDoc ∧
    a.at [1] = none := by
  have hall : ∀ J ∈ Tree.alls [nestDoc], J = idleDoc "r" ∨ J = whDoc := by
    intro J hJ
    simpa [nestDoc, Tree.alls, Tree.all] using hJ
  obtain ⟨cs, fs, tags, h1, h2, h3, h4⟩ := documents_to_assembly_partial (topo := nestTopo) (t := nestDoc) (rest := []) (dec := fun _ => whDec)
    (I := fun _ => evmTag whTag) (arity := fun _ => exArity) (main := fun _ => "main") (by decide +kernel) (by
      intro J hJ
      rcases hall J hJ with rfl | rfl
      · exact idle_fit
      · exact wh_fit)
  obtain ⟨a, h5, h6⟩ := h4 (mapTs nestPlan fs) (by
      unfold PlansFor
      rw [mapTrees_comp _ _ (fun u => u) fs (by
        intro u _
        unfold nestPlan
        split <;> rfl)]
      have : ∀ (u : List (Tree CObj)), mapTs (fun u => u) u = u := mapTs_id
      rw [this]) (by
      intro J hJ p hp e
      rw [mapTs_alls] at hp
      obtain ⟨u, hu, rfl⟩ := mem_map.1 hp
      have hbase : (nestPlan u).base = u := by unfold nestPlan; split <;> rfl
      rw [hbase] at e
      obtain ⟨O, T, p1, p2⟩ := h3 J hJ u hu e
      obtain ⟨n, fns, obj⟩ := u
      simp only at e p2
      subst e
      rcases hall J hJ with rfl | rfl
      · rw [idle_parsed] at p1
        cases p1
        have ht : nestTopo (callSites [] (renameObj [] idleObj)) = [] := by decide +kernel
        obtain ⟨T', q1, q2, q3⟩ := idle_low
        have p3 : frontEnd [] (nestTopo (callSites [] (renameObj [] idleObj))) idleObj = some (fns, obj, T) := p2
        rw [ht, q1] at p3
        simp only [Option.some.injEq, Prod.mk.injEq] at p3
        obtain ⟨rfl, rfl, rfl⟩ := p3
        refine ⟨rfl, rfl, idle_checked idle_fns, ?_⟩
        intro f F hF
        obtain ⟨rfl, rfl⟩ := idle_fns f F hF
        decide +kernel
      · rw [whDoc_parsed] at p1
        cases p1
        have p3 : frontEnd ["g", "h"] (nestTopo (callSites ["g", "h"] (renameObj ["g", "h"] whObj))) whObj = some (fns, obj, T) := p2
        rw [wh_topo] at p3
        obtain ⟨n2, O2, T2, g1, -, g3, -⟩ := whole_compiler_partial whObj_compilable whObj_order whObj_ending whObj_ops (main := "main") (by decide +kernel)
          whObj_emittable whTag_meaning (fun _ => rfl)
        have e : (n2, O2, T2) = (fns, obj, T) := Option.some.inj (g1.symm.trans p3)
        cases e
        have hl : whLow = (fns, obj, T) := by unfold whLow; rw [g1]; rfl
        have hp : (nestPlan ⟨"o", fns, obj⟩).prog = whProg := by
          unfold whProg
          rw [hl]
          rfl
        have hfns := wh_fns hl g3
        refine ⟨rfl, rfl, ?_, ?_⟩
        · show Checked (nestPlan ⟨"o", fns, obj⟩).prog _ whSched
          rw [hp]
          exact wh_checked hfns
        · intro f F hF
          have hF' : (nestPlan ⟨"o", fns, obj⟩).prog.fns f = some F := hF
          rw [hp] at hF'
          show _ ≤ 5
          rcases hfns f F hF' with ⟨rfl, rfl⟩ | ⟨rfl, rfl⟩ <;> decide +kernel)
  obtain ⟨b0, c1, c2⟩ := (h6 []).1 (idleDoc "r") rfl
  obtain ⟨b, d1, d2⟩ := (h6 [0]).1 whDoc rfl
  cases c1
  exact ⟨cs, fs, tags, a, b, h1, h2, h5, c2, d1, d2, (h6 [1]).2 rfl⟩

/-- C70: `o` is the subobject number 0 of `r`. -/
example (r : Refs) : translate (subKeys nestDoc.subs) "r" "dataoffset" (some ["o"]) r = some (⟨"push [$]", [.num 0]⟩, r) :=
  (reference_finds_subobject (ts := nestDoc.subs) (by decide +kernel) (i := 0) (t := .node whDoc []) rfl "r" r).1

end Grey.Nested
