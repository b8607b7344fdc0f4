/-
The analyses that the layout generation of a component starts from (src/liveness/layout_generation.py:71-126, the constructor of LayoutGeneration, with the
liveness information of src/liveness/liveness_analysis.py:71-83, 107-135): C85.

The order of a dictionary or of a topological sort is not modelled: it is a parameter (`Choices`), and the theorems hold for every order.
-/
import Verif.Lower.Model
import Verif.Liveness.Theorems
import Verif.Graphs.Dominance
import Verif.Graphs.Forest
import Verif.Layout.Depth
import Verif.Layout.DriverTheorems
import Verif.Cfg.Lemmas
import Verif.Inline.Check
namespace Grey.Lower
open List Grey.Cfg Grey.Inline

/-! ### Model -/

/-- What the liveness analysis reads of a block (src/liveness/liveness_state.py:142-153). -/
def liveBlock (B : Block) : Liveness.Block := ⟨B.instrs.map fun i => ⟨i.op, i.ins, i.outs⟩, B.succs, B.comesFrom, B.entries⟩

/-- The graph that the liveness analysis works on (src/liveness/liveness_analysis.py:71-83). -/
def liveGraph (G : BlockList) (b : String) : Liveness.Block := ((G.get b).map liveBlock).getD ⟨[], [], [], []⟩

/-- `liveness_analysis_from_vertices` for a component (src/liveness/liveness_analysis.py:71-115), started from its terminal blocks. -/
def livenessOf (fuel : Nat) (G : BlockList) : Option Liveness.St := Liveness.run (liveGraph G) (G.blocks.map (·.id)) G.terminals fuel

/-- What is left open: the order of the keys of the liveness information, a topological order of the dominance tree, and bounds for the iterations of the
liveness analysis and of the search for loops. -/
structure Choices where
  keys : List String
  topo : List String
  liveFuel : Nat
  loopFuel : Nat

/-- `digraph_from_block_info` (src/analysis/abstract_state.py:42-51): the successors of a node. Only analysed blocks have edges. -/
def digraphSucc (G : BlockList) (st : Liveness.St) (b : String) : List String := if (st.info b).isSome then (liveGraph G b).succs.dedup else []

/-- The nodes: the analysed blocks and their successors. -/
def digraphNodes (G : BlockList) (st : Liveness.St) (keys : List String) : List String :=
  (keys.flatMap fun b => b :: digraphSucc G st b).reverse.dedup.reverse

/-- The predecessors of a node. -/
def digraphPred (G : BlockList) (st : Liveness.St) (keys : List String) (b : String) : List String :=
  (digraphNodes G st keys).filter fun a => decide (b ∈ digraphSucc G st a)

/-- What `compute_variable_depth` reads of the liveness information; `none`: `KeyError`. -/
def depthInfo (G : BlockList) (st : Liveness.St) (b : String) : Option Layout.DInfo :=
  (st.info b).map fun x => ⟨x.1, (liveGraph G b).succs, (liveGraph G b).instrs.map (·.ins)⟩

/-- `variable_order[block].get(x, (-1,))` -/
def depthList (D : String → Option (String → Option Layout.Depth)) (b x : String) : List Int :=
  (((D b).bind fun m => m x).map fun d => [(d.1 : Int), (d.2.1 : Int), (d.2.2 : Int)]).getD [-1]

/-- The constructor of `LayoutGeneration` (src/liveness/layout_generation.py:71-126) after the liveness analysis of the component. `none`: an exception (the start is
not in the graph, or a block of the dominance tree has not been analysed), or more iterations needed than given. Sets of variables are lists without
repetition, in an order of their own. -/
def layoutAnalysis (ch : Choices) (junk : Bool) (G : BlockList) : Option Analysis :=
  (livenessOf ch.liveFuel G).bind fun st => G.start.bind fun s =>
    if s ∈ digraphNodes G st ch.keys then
      (Layout.variableDepth (depthInfo G st) ch.topo).bind fun D =>
      (Graphs.nestingForest (digraphNodes G st ch.keys) (digraphSucc G st) (digraphPred G st ch.keys) ch.loopFuel).map fun F =>
        { junk := junk
          inLoop := fun b => decide (b ∈ F.nodes)
          liveIn := fun b => (((st.info b).bind (·.2)).getD []).dedup
          liveOut := fun b => (((st.info b).map (·.1)).getD []).dedup
          depth := depthList D
          level := Graphs.level (digraphNodes G st ch.keys) (digraphSucc G st) s
          domPath := Graphs.domPath (digraphNodes G st ch.keys) (digraphSucc G st) s }
    else none

/-! ### Specification -/

/-- The orders are orders of the right things: the keys are the analysed blocks, and the topological order lists the nodes of the dominance tree, which are
those that the start reaches. -/
structure Choices.Ok (ch : Choices) (G : BlockList) : Prop where
  keys : ∀ st, livenessOf ch.liveFuel G = some st → ∀ b, b ∈ ch.keys ↔ (st.info b).isSome
  topo : ∀ st s, livenessOf ch.liveFuel G = some st → G.start = some s → ∀ b, b ∈ ch.topo ↔ Graph.Reach (digraphSucc G st) s b

/-- A path in the component. -/
def Leads (G : BlockList) : String → String → Prop := Graph.Reach fun b => (liveGraph G b).succs

/-- A graph whose edges and predecessors agree, as the analyses expect it. -/
structure Analysable (G : BlockList) : Prop where
  sane : Sane G
  exact : ∀ x X, G.get x = some X → X.entries = [] ∨ X.entries.Perm X.comesFrom
  phisFirst : ∀ x X, G.get x = some X → X.instrs = phis X ++ code X
  phiShape : ∀ x X, G.get x = some X → ∀ i ∈ phis X, X.entries ≠ [] ∧ i.ins.length = X.entries.length

/-- `n` edges of the component lead from `b` to `c`. -/
inductive Steps (G : BlockList) : Nat → String → String → Prop
  | refl (b : String) : Steps G 0 b b
  | step {n : Nat} {b c d : String} : c ∈ (liveGraph G b).succs → Steps G n c d → Steps G (n + 1) b d

/-- `x` is the argument `j` of the instruction `i` of the block `b`. -/
def ArgumentAt (G : BlockList) (b x : String) (i j : Nat) : Prop := ∃ B ins, G.get b = some B ∧ B.instrs[i]? = some ins ∧ ins.ins[j]? = some x

/-! ### Proofs -/

theorem liveGraph_some {G : BlockList} {x : String} {X : Block} (h : G.get x = some X) : liveGraph G x = liveBlock X := by unfold liveGraph; rw [h]; rfl

theorem liveGraph_none {G : BlockList} {x : String} (h : G.get x = none) : liveGraph G x = ⟨[], [], [], []⟩ := by unfold liveGraph; rw [h]; rfl

/-- The graph is as the liveness analysis expects it. -/
theorem live_wf {G : BlockList} (h : Analysable G) : Liveness.WF (liveGraph G) := by
  have phi : ∀ x i, i ∈ (liveGraph G x).instrs → i.op = "PhiFunction" → ∃ X j, G.get x = some X ∧ j ∈ phis X ∧ i = ⟨j.op, j.ins, j.outs⟩ := by
    intro x i hi hop
    cases hx : G.get x with
    | none => rw [liveGraph_none hx] at hi; cases hi
    | some X =>
      rw [liveGraph_some hx] at hi
      obtain ⟨j, hj, rfl⟩ := mem_map.1 hi
      exact ⟨X, j, rfl, mem_filter.2 ⟨hj, by simpa [isPhi] using hop⟩, rfl⟩
  refine ⟨?_, ?_, ?_, ?_, ?_⟩
  · intro b s
    cases hb : G.get b with
    | none =>
      rw [liveGraph_none hb]
      cases hs : G.get s with
      | none => rw [liveGraph_none hs]; simp
      | some S =>
        rw [liveGraph_some hs]
        refine ⟨(fun h => by cases h), fun hm => ?_⟩
        obtain ⟨P, hP⟩ := h.sane.coherent.preds s S hs b hm
        rw [hb] at hP
        cases hP
    | some B =>
      rw [liveGraph_some hb]
      cases hs : G.get s with
      | none =>
        rw [liveGraph_none hs]
        refine ⟨fun hm => ?_, fun h => by cases h⟩
        obtain ⟨Q, hQ⟩ := h.sane.coherent.targets b B hb s hm
        rw [hs] at hQ
        cases hQ
      | some S =>
        rw [liveGraph_some hs]
        exact (h.sane.coherent.edges b s B S hb hs).symm
  · intro b pre i post hl hop j hj
    cases hb : G.get b with
    | none => rw [liveGraph_none hb] at hl; simp at hl
    | some B =>
      rw [liveGraph_some hb] at hl
      have hl' : B.instrs.map (fun i : Instr => (⟨i.op, i.ins, i.outs⟩ : Liveness.Instr)) = pre ++ i :: post := hl
      rw [h.phisFirst b B hb, map_append] at hl'
      by_contra hn
      have hall : ∀ k ∈ pre ++ i :: post, k.op = "PhiFunction" ∨ k ∈ (code B).map (fun i : Instr => (⟨i.op, i.ins, i.outs⟩ : Liveness.Instr)) := by
        intro k hk
        rw [← hl'] at hk
        rcases mem_append.1 hk with hk | hk
        · obtain ⟨q, hq, rfl⟩ := mem_map.1 hk
          left
          simpa [isPhi] using (mem_filter.1 hq).2
        · exact Or.inr hk
      have hcode : ∀ k ∈ (code B).map (fun i : Instr => (⟨i.op, i.ins, i.outs⟩ : Liveness.Instr)), k.op ≠ "PhiFunction" := by
        intro k hk
        obtain ⟨q, hq, rfl⟩ := mem_map.1 hk
        simpa [isPhi] using (mem_filter.1 hq).2
      rcases append_eq_append_iff.1 hl' with ⟨as, h1, h2⟩ | ⟨as, h1, h2⟩
      · rw [h2] at hcode
        exact hcode i (by simp) hop
      · have : j ∈ (phis B).map (fun i : Instr => (⟨i.op, i.ins, i.outs⟩ : Liveness.Instr)) := by rw [h1]; exact mem_append_left _ hj
        obtain ⟨q, hq, rfl⟩ := mem_map.1 this
        exact hn (by simpa [isPhi] using (mem_filter.1 hq).2)
  · intro b i hi hop
    obtain ⟨X, j, hX, hj, rfl⟩ := phi b i hi hop
    rw [liveGraph_some hX]
    exact h.phiShape b X hX j hj
  · intro b s hs hne
    cases hS : G.get s with
    | none => rw [liveGraph_none hS] at hne; simp at hne
    | some S =>
      rw [liveGraph_some hS] at hne ⊢
      cases hb : G.get b with
      | none => rw [liveGraph_none hb] at hs; cases hs
      | some B =>
        rw [liveGraph_some hb] at hs
        exact ((h.exact s S hS).resolve_left hne).mem_iff.2 ((h.sane.coherent.edges b s B S hb hS).2 hs)
  · intro b
    cases hb : G.get b with
    | none => rw [liveGraph_none hb]; simp
    | some B =>
      rw [liveGraph_some hb]
      rcases h.exact b B hb with e | e
      · show B.entries.Nodup
        rw [e]; simp
      · exact e.nodup_iff.2 (h.sane.coherent.once b B hb)

section
variable {G : BlockList} {st : Liveness.St} {keys : List String}

theorem mem_nodes (hk : ∀ b, b ∈ keys ↔ (st.info b).isSome) {b : String} :
    b ∈ digraphNodes G st keys ↔ (st.info b).isSome ∨ ∃ a, b ∈ digraphSucc G st a := by
  unfold digraphNodes
  rw [mem_reverse, mem_dedup, mem_reverse, mem_flatMap]
  simp only [mem_cons, hk]
  constructor
  · rintro ⟨a, ha, rfl | hb⟩
    · exact Or.inl ha
    · exact Or.inr ⟨a, hb⟩
  · rintro (h | ⟨a, ha⟩)
    · exact ⟨b, h, Or.inl rfl⟩
    · refine ⟨a, ?_, Or.inr ha⟩
      by_contra hn
      unfold digraphSucc at ha
      rw [if_neg hn] at ha
      cases ha

theorem digraph_finite (hk : ∀ b, b ∈ keys ↔ (st.info b).isSome) {s : String} (hs : s ∈ digraphNodes G st keys) :
    Graphs.Finite (digraphNodes G st keys) (digraphSucc G st) s :=
  ⟨hs, fun x _ y hy => (mem_nodes hk).2 (Or.inr ⟨x, hy⟩)⟩

theorem mem_digraphSucc {a b : String} : b ∈ digraphSucc G st a ↔ (st.info a).isSome ∧ b ∈ (liveGraph G a).succs := by
  unfold digraphSucc
  split
  · rename_i h; simp [h]
  · rename_i h; simp [h]

/-- If everything that is reached in the digraph has been analysed, the digraph reaches everything that the component does. -/
theorem digraph_reach {s b : String} (hs : (st.info s).isSome) (hall : ∀ b, Graph.Reach (digraphSucc G st) s b → (st.info b).isSome)
    (h : Leads G s b) : Graph.Reach (digraphSucc G st) s b := by
  unfold Leads at h
  induction h with
  | refl => exact .refl
  | tail _ hab ih => exact .tail ih (mem_digraphSucc.2 ⟨hall _ ih, hab⟩)

theorem leads_of_digraph {s b : String} (h : Graph.Reach (digraphSucc G st) s b) : Leads G s b := by
  induction h with
  | refl => exact .refl
  | tail _ hab ih => exact .tail ih (mem_digraphSucc.1 hab).2

end

section
variable {G : BlockList} {ch : Choices} {junk : Bool}

/-- What the constructor has computed. -/
theorem analysis_some {A : Analysis} (h : layoutAnalysis ch junk G = some A) : ∃ st s D F, livenessOf ch.liveFuel G = some st ∧ G.start = some s ∧
    s ∈ digraphNodes G st ch.keys ∧ Layout.variableDepth (depthInfo G st) ch.topo = some D ∧
    Graphs.nestingForest (digraphNodes G st ch.keys) (digraphSucc G st) (digraphPred G st ch.keys) ch.loopFuel = some F ∧
    A.junk = junk ∧ (A.inLoop = fun b => decide (b ∈ F.nodes)) ∧ (A.liveIn = fun b => (((st.info b).bind (·.2)).getD []).dedup) ∧
    (A.liveOut = fun b => (((st.info b).map (·.1)).getD []).dedup) ∧ A.depth = depthList D ∧
    A.level = Graphs.level (digraphNodes G st ch.keys) (digraphSucc G st) s ∧
    A.domPath = Graphs.domPath (digraphNodes G st ch.keys) (digraphSucc G st) s := by
  unfold layoutAnalysis at h
  obtain ⟨st, h1, h⟩ := Option.bind_eq_some_iff.1 h
  obtain ⟨s, h2, h⟩ := Option.bind_eq_some_iff.1 h
  split at h
  · rename_i h3
    obtain ⟨D, h4, h⟩ := Option.bind_eq_some_iff.1 h
    obtain ⟨F, h5, rfl⟩ := Option.map_eq_some_iff.1 h
    exact ⟨st, s, D, F, h1, h2, h3, h4, h5, rfl, rfl, rfl, rfl, rfl, rfl, rfl⟩
  · cases h

/-- After the constructor has succeeded, every block that the start leads to has been analysed. -/
theorem analysed_of_some (ok : ch.Ok G) {A : Analysis} (h : layoutAnalysis ch junk G = some A) {st : Liveness.St} {s : String}
    (hst : livenessOf ch.liveFuel G = some st) (hs : G.start = some s) : ∀ b, Graph.Reach (digraphSucc G st) s b → (st.info b).isSome := by
  obtain ⟨st', s', D, F, h1, h2, h3, h4, -⟩ := analysis_some h
  rw [hst] at h1
  cases h1
  rw [hs] at h2
  cases h2
  intro b hb
  have hd := (Layout.depths_realised (depthInfo G st) ch.topo).1.1 (by rw [h4]; rfl) b ((ok.topo st s hst hs b).2 hb)
  unfold depthInfo at hd
  simpa using hd

/-- **C85, when there are layouts.** If the liveness analysis ends, the layout generation can be started (no exception is raised while its analyses are computed) exactly if every block that
the first block leads to leads to one of the terminal blocks of the component: a loop that cannot be left makes the compiler fail. -/
theorem analysis_iff (hG : Analysable G) (ok : ch.Ok G) {st : Liveness.St} (hst : livenessOf ch.liveFuel G = some st) {s : String} (hs : G.start = some s) :
    ∃ n, ∀ m, n ≤ m →
      ((layoutAnalysis { ch with loopFuel := m } junk G).isSome ↔ ∀ b, Leads G s b → ∃ t ∈ G.terminals, Leads G b t) := by
  have hk := ok.keys st hst
  have hvis := fun b => Liveness.visited_iff (live_wf hG) hst b
  obtain ⟨n, back, bodies, F, -, hF, -⟩ := Graphs.forest_exact (digraphNodes G st ch.keys) (digraphSucc G st) (digraphPred G st ch.keys)
    (fun x _ y hy => (mem_nodes hk).2 (Or.inr ⟨x, hy⟩)) (fun x _ y hy => (mem_filter.1 hy).1)
    (fun x y hy => (mem_nodes hk).2 (Or.inl (mem_digraphSucc.1 hy).1))
  refine ⟨n, fun m hm => ?_⟩
  have hsome : (layoutAnalysis { ch with loopFuel := m } junk G).isSome ↔ s ∈ digraphNodes G st ch.keys ∧ ∀ b ∈ ch.topo, (st.info b).isSome := by
    have hd := (Layout.depths_realised (depthInfo G st) ch.topo).1
    have hi : ∀ b, (depthInfo G st b).isSome = (st.info b).isSome := fun b => by unfold depthInfo; simp
    simp only [hi] at hd
    unfold layoutAnalysis
    simp only
    rw [hst, Option.bind_some, hs, Option.bind_some, hF m hm]
    by_cases h : s ∈ digraphNodes G st ch.keys
    · rw [if_pos h]
      rw [← hd]
      cases Layout.variableDepth (depthInfo G st) ch.topo <;> simp [h]
    · rw [if_neg h]; simp [h]
  rw [hsome]
  constructor
  · rintro ⟨h1, h2⟩ b hb
    have hall : ∀ b, Graph.Reach (digraphSucc G st) s b → (st.info b).isSome := fun b hb => h2 b ((ok.topo st s hst hs b).2 hb)
    exact (hvis b).1 (hall b (digraph_reach (hall s .refl) hall hb))
  · intro h
    refine ⟨(mem_nodes hk).2 (Or.inl ((hvis s).2 (h s .refl))), fun b hb => ?_⟩
    exact (hvis b).2 (h b (leads_of_digraph ((ok.topo st s hst hs b).1 hb)))

/-- **C85, ends.** Nothing is live at the end of a block without successors. -/
theorem dead_at_end (hG : Analysable G) {A : Analysis} (h : layoutAnalysis ch junk G = some A) {b : String} {B : Block} (hb : G.get b = some B)
    (hs : B.succs = []) : A.liveOut b = [] := by
  obtain ⟨st, s, D, F, h1, -, -, -, -, -, -, -, h2, -⟩ := analysis_some h
  rw [h2]
  simp only
  cases hi : st.info b with
  | none => rfl
  | some x =>
    obtain ⟨out, inn⟩ := x
    rw [Option.map_some, Option.getD_some, eq_nil_iff_forall_not_mem]
    intro x hx
    rw [mem_dedup] at hx
    have := (Liveness.live_precise (live_wf hG) h1 hi).1 x hx
    have hnil : (liveGraph G b).succs = [] := by rw [liveGraph_some hb]; exact hs
    cases this with
    | phi hm _ => rw [hnil] at hm; cases hm
    | succ hm _ _ => rw [hnil] at hm; cases hm

/-- **C85, live variables.** What is taken to be live really is: it is used on some path before it is assigned again. -/
theorem analysis_live (hG : Analysable G) {A : Analysis} (h : layoutAnalysis ch junk G = some A) (b : String) :
    (∀ x ∈ A.liveOut b, Liveness.Live (liveGraph G) false b x) ∧
    ∀ x ∈ A.liveIn b, Liveness.Live (liveGraph G) true b x ∨ Liveness.PhiDef (liveGraph G) b x := by
  obtain ⟨st, s, D, F, h1, -, -, -, -, -, -, h3, h2, -⟩ := analysis_some h
  rw [h2, h3]
  simp only [mem_dedup]
  cases hi : st.info b with
  | none => simp
  | some x =>
    obtain ⟨out, inn⟩ := x
    obtain ⟨p, q⟩ := Liveness.live_precise (live_wf hG) h1 hi
    refine ⟨p, ?_⟩
    cases inn with
    | none => simp
    | some l => exact q l rfl

/-- **C85, dominance.** In the layout generation of a component, a path of the dominance tree leads from `a` to `b` exactly if every path of the component from its start
to `b` goes through `a`; and exactly the blocks that the start leads to have a level. -/
theorem analysis_dominance (ok : ch.Ok G) {A : Analysis} (h : layoutAnalysis ch junk G = some A) {s : String} (hs : G.start = some s) (a b : String) :
    ((A.domPath a b).isSome ↔ Graphs.Dominates (fun x => (liveGraph G x).succs) s a b) ∧ ((A.level b).isSome ↔ Leads G s b) := by
  obtain ⟨st, s', D, F, h1, h2, h3, -, -, -, -, -, -, -, h4, h5⟩ := analysis_some h
  rw [hs] at h2
  cases h2
  have hk := ok.keys st h1
  have fin := digraph_finite hk h3
  have hall := analysed_of_some ok h h1 hs
  have hr : ∀ b, Graph.Reach (digraphSucc G st) s b ↔ Leads G s b := fun b => ⟨leads_of_digraph, digraph_reach (hall s .refl) hall⟩
  refine ⟨?_, by rw [h4, (Graphs.dominance_levels fin b).1, hr b]⟩
  rw [h5]
  by_cases hb : Leads G s b
  · rw [(Graphs.dominance_paths fin a b ((hr b).2 hb)).1]
    have hav : ∀ x, Graph.Reach (digraphSucc G st) s x → (Graphs.PathAvoiding (fun x y => y ∈ digraphSucc G st x) a b x ↔
        Graphs.PathAvoiding (fun x y => y ∈ (liveGraph G x).succs) a b x) := by
      intro x hx
      constructor
      · intro p
        induction p with
        | refl h => exact .refl h
        | step x y hne hxy _ ih => exact .step x y hne (mem_digraphSucc.1 hxy).2 (ih (.tail hx hxy))
      · intro p
        induction p with
        | refl h => exact .refl h
        | step x y hne hxy _ ih =>
          have hxy' : y ∈ digraphSucc G st x := mem_digraphSucc.2 ⟨hall x hx, hxy⟩
          exact .step x y hne hxy' (ih (.tail hx hxy'))
    unfold Graphs.Dominates
    rw [hav s .refl, hr b]
    exact Iff.rfl
  · have : b ∉ Graphs.reached (digraphNodes G st ch.keys) (digraphSucc G st) s := fun hm => hb ((hr b).1 ((Graphs.mem_reached fin b).1 hm))
    unfold Graphs.domPath
    rw [if_neg this]
    exact ⟨(fun h => by cases h), fun h => absurd h.1 hb⟩

/-- **C85, depths.** The depth recorded for a variable in a block is that of a use, as many edges away as it says and at the recorded position, or the variable is live at the end of a block
and the depth is larger than the number of blocks; a variable that the block itself uses has depth 0. -/
theorem analysis_depth (ok : ch.Ok G) {A : Analysis} (h : layoutAnalysis ch junk G = some A) {s : String} (hs : G.start = some s) (b x : String) :
    (A.depth b x = [-1] ∨ ∃ d i j : Nat, A.depth b x = [(d : Int), (i : Int), (j : Int)] ∧
      ((∃ c, Steps G d b c ∧ ArgumentAt G c x i j) ∨ ∃ c k, Steps G k b c ∧ x ∈ A.liveOut c ∧ d = ch.topo.length + 1 + k)) ∧
    (Leads G s b → ∀ i j, ArgumentAt G b x i j → ∃ i' j' : Nat, A.depth b x = [0, (i' : Int), (j' : Int)] ∧ ArgumentAt G b x i' j' ∧ (i < i' ∨ i = i' ∧ j ≤ j')) ∧
    (Leads G s b → x ∈ A.liveOut b → A.depth b x ≠ [-1]) := by
  obtain ⟨st, s', D, F, h1, h2, h3, h4, -, -, -, -, h6, h7, -⟩ := analysis_some h
  rw [hs] at h2
  cases h2
  have hall := analysed_of_some ok h h1 hs
  obtain ⟨hkeys, hD⟩ := (Layout.depths_realised (depthInfo G st) ch.topo).2 D h4
  have steps : ∀ {n c d}, Layout.Edges (depthInfo G st) n c d → Steps G n c d := by
    intro n c d he
    induction he with
    | refl b => exact .refl b
    | step hi hm _ ih =>
      obtain ⟨y, -, rfl⟩ := Option.map_eq_some_iff.1 hi
      exact .step hm ih
  have uses : ∀ {c x i j}, Layout.Uses (depthInfo G st) c x i j ↔ (st.info c).isSome ∧ ArgumentAt G c x i j := by
    intro c x i j
    constructor
    · rintro ⟨I, args, hI, ha, hx⟩
      obtain ⟨y, hy, rfl⟩ := Option.map_eq_some_iff.1 hI
      refine ⟨by rw [hy]; rfl, ?_⟩
      cases hc : G.get c with
      | none => simp only [liveGraph_none hc] at ha; simp at ha
      | some C =>
        simp only [liveGraph_some hc, liveBlock, map_map, getElem?_map, Option.map_eq_some_iff] at ha
        obtain ⟨ins, hins, rfl⟩ := ha
        exact ⟨C, ins, hc, hins, hx⟩
    · rintro ⟨hi, B, ins, hB, hins, hx⟩
      obtain ⟨y, hy⟩ := Option.isSome_iff_exists.1 hi
      refine ⟨_, ins.ins, by unfold depthInfo; rw [hy]; rfl, ?_, hx⟩
      simp only [liveGraph_some hB, liveBlock, map_map, getElem?_map, hins]
      rfl
  have topo : Leads G s b → b ∈ ch.topo := fun hb => (ok.topo st s h1 hs b).2 (digraph_reach (hall s .refl) hall hb)
  rw [h7]
  unfold depthList
  refine ⟨?_, ?_, ?_⟩
  · cases hb : D b with
    | none => exact Or.inl rfl
    | some m =>
      cases hx : m x with
      | none => left; simp [hx]
      | some d =>
        right
        refine ⟨d.1, d.2.1, d.2.2, by simp [hx], ?_⟩
        rcases (hD b m hb).1 x d hx with ⟨c, e, hu⟩ | ⟨c, k, I, e, hI, hl, hd⟩
        · exact Or.inl ⟨c, steps e, (uses.1 hu).2⟩
        · refine Or.inr ⟨c, k, steps e, ?_, by rw [hd]⟩
          obtain ⟨y, hy, rfl⟩ := Option.map_eq_some_iff.1 hI
          rw [h6]
          simp only [hy, Option.map_some, Option.getD_some, mem_dedup]
          exact hl
  · intro hb i j hu
    obtain ⟨m, hm⟩ := Option.isSome_iff_exists.1 ((hkeys b).2 (topo hb))
    have hi := hall b (digraph_reach (hall s .refl) hall hb)
    obtain ⟨i', j', e1, e2, e3⟩ := (hD b m hm).2.1 x i j (uses.2 ⟨hi, hu⟩)
    exact ⟨i', j', by simp [hm, e1], (uses.1 e2).2, e3⟩
  · intro hb hl
    obtain ⟨m, hm⟩ := Option.isSome_iff_exists.1 ((hkeys b).2 (topo hb))
    obtain ⟨y, hy⟩ := Option.isSome_iff_exists.1 (hall b (digraph_reach (hall s .refl) hall hb))
    rw [h6] at hl
    simp only [hy, Option.map_some, Option.getD_some, mem_dedup] at hl
    obtain ⟨d, hd⟩ := Option.isSome_iff_exists.1 ((hD b m hm).2.2 _ x (by unfold depthInfo; rw [hy]; rfl) hl)
    simp [hm, hd]

theorem path_split {E : String → String → Prop} {B : List (String × String)} {x y : String} (h : Graphs.Path E x y) :
    Graphs.Path (fun a b => E a b ∧ (a, b) ∉ B) x y ∨ ∃ a b, (a, b) ∈ B ∧ Relation.ReflTransGen E x b ∧ Relation.ReflTransGen E b y := by
  have toRefl : ∀ {x y}, Graphs.Path E x y → Relation.ReflTransGen E x y := by
    intro x y h
    induction h with
    | edge x y e => exact .single e
    | cons x y z e _ ih => exact .head e ih
  induction h with
  | edge x y e =>
    by_cases hb : (x, y) ∈ B
    · exact Or.inr ⟨x, y, hb, .single e, .refl⟩
    · exact Or.inl (.edge _ _ ⟨e, hb⟩)
  | cons x y z e hp ih =>
    by_cases hb : (x, y) ∈ B
    · exact Or.inr ⟨x, y, hb, .single e, toRefl hp⟩
    · rcases ih with ih | ⟨a, b, h1, h2, h3⟩
      · exact Or.inl (.cons _ _ _ ⟨e, hb⟩ ih)
      · exact Or.inr ⟨a, b, h1, .head e h2, h3⟩

/-- **C85, loops.** A block that is taken to be in a loop leads to the end of an edge that closes a cycle, and every cycle that the first block leads to has a block that is taken to be in a loop;
and the option for junk is passed on. -/
theorem analysis_loops (ok : ch.Ok G) {st : Liveness.St} (hst : livenessOf ch.liveFuel G = some st) {s : String} (hs : G.start = some s) :
    ∃ n, ∀ m, n ≤ m → ∀ A, layoutAnalysis { ch with loopFuel := m } junk G = some A → A.junk = junk ∧
      (∀ b, A.inLoop b = true → ∃ u h, h ∈ (liveGraph G u).succs ∧ Leads G h u ∧ Leads G b u) ∧
      ∀ x, Leads G s x → Graphs.Path (fun a b => b ∈ (liveGraph G a).succs) x x → ∃ h, A.inLoop h = true ∧ Leads G x h ∧ Leads G h x := by
  have hk := ok.keys st hst
  have hclosed : ∀ x ∈ digraphNodes G st ch.keys, ∀ y ∈ digraphSucc G st x, y ∈ digraphNodes G st ch.keys := fun x _ y hy => (mem_nodes hk).2 (Or.inr ⟨x, hy⟩)
  obtain ⟨n, back, bodies, F, hback, hF, -, f1, f2, f3, -, f4⟩ := Graphs.forest_exact (digraphNodes G st ch.keys) (digraphSucc G st) (digraphPred G st ch.keys)
    hclosed (fun x _ y hy => (mem_filter.1 hy).1) (fun x y hy => (mem_nodes hk).2 (Or.inl (mem_digraphSucc.1 hy).1))
  obtain ⟨back', hb', c1, c2⟩ := Graphs.back_edges_break_cycles (digraphNodes G st ch.keys) (digraphSucc G st) hclosed
  rw [hback] at hb'
  cases hb'
  refine ⟨n, fun m hm A h => ?_⟩
  have ok' : Choices.Ok { ch with loopFuel := m } G := ⟨ok.keys, ok.topo⟩
  obtain ⟨st', s', D, F', h1, h2, h3, -, h4, h5, h6, -⟩ := analysis_some h
  rw [show livenessOf ({ ch with loopFuel := m } : Choices).liveFuel G = some st from hst] at h1
  cases h1
  rw [hs] at h2
  cases h2
  rw [show Graphs.nestingForest _ _ _ m = some F from hF m hm] at h4
  cases h4
  have hall := analysed_of_some ok' h hst hs
  have leads : ∀ {a b}, Graphs.Path (fun a b => b ∈ digraphSucc G st a) a b → Leads G a b := by
    intro a b hp
    induction hp with
    | edge x y e => exact .single (mem_digraphSucc.1 e).2
    | cons x y z e _ ih => exact .head (mem_digraphSucc.1 e).2 ih
  have avoid : ∀ {v u x}, Graphs.PathAvoiding (fun a b => a ∈ digraphPred G st ch.keys b) v u x → Leads G x u := by
    intro v u x hp
    induction hp with
    | refl _ => exact .refl
    | step x y _ e _ ih => exact .head (mem_digraphSucc.1 (of_decide_eq_true (mem_filter.1 e).2)).2 ih
  have header : ∀ {u h}, (u, h) ∈ back → h ∈ (liveGraph G u).succs ∧ Leads G h u := by
    intro u h hm
    obtain ⟨e, hp⟩ := c2 _ hm
    refine ⟨(mem_digraphSucc.1 e).2, ?_⟩
    rcases hp with hp | hp
    · rw [show u = h from hp]; exact .refl
    · exact leads hp
  refine ⟨h5, ?_, ?_⟩
  · intro b hb
    rw [h6] at hb
    rcases (f4 b).1 (of_decide_eq_true hb) with hb | ⟨h, hb⟩
    · obtain ⟨u, hu⟩ := (f1 b).1 hb
      exact ⟨u, b, (header hu).1, (header hu).2, (header hu).2⟩
    · obtain ⟨pre, body, post, e, hm, hne, -⟩ := (f3 h b).1 hb
      obtain ⟨u, hu, hl, -⟩ := f2 h body (by rw [e]; simp)
      refine ⟨u, h, (header hu).1, (header hu).2, ?_⟩
      rcases (hl.2 b).1 hm with e | e
      · exact absurd e hne
      · exact avoid e
  · intro x hx hp
    have hx' : Graph.Reach (digraphSucc G st) s x := digraph_reach (hall s .refl) hall hx
    have key : ∀ {x y}, Graph.Reach (digraphSucc G st) s x → Graphs.Path (fun a b => b ∈ (liveGraph G a).succs) x y → Graphs.Path (fun a b => b ∈ digraphSucc G st a) x y := by
      intro x y hx hp
      induction hp with
      | edge x y e => exact .edge _ _ (mem_digraphSucc.2 ⟨hall x hx, e⟩)
      | cons x y z e _ ih =>
        have e' : y ∈ digraphSucc G st x := mem_digraphSucc.2 ⟨hall x hx, e⟩
        exact .cons _ _ _ e' (ih (.tail hx e'))
    rcases path_split (B := back) (key hx' hp) with hq | ⟨a, h, q1, q2, q3⟩
    · exfalso
      refine c1 x ((mem_nodes hk).2 (Or.inl (hall x hx'))) ?_
      have : (fun a b => b ∈ digraphSucc G st a ∧ (a, b) ∉ back) = fun a b => b ∈ Graphs.withoutBackEdges (digraphSucc G st) back a := by
        funext a b
        simp [Graphs.withoutBackEdges]
      rw [← this]
      exact hq
    · refine ⟨h, ?_, leads_of_digraph q2, leads_of_digraph q3⟩
      rw [h6]
      exact decide_eq_true ((f4 h).2 (Or.inl ((f1 h).2 ⟨a, q1⟩)))

/-- The layout generation finds its way. -/
theorem analysis_navigable {names : List String} {dec : String → String × Option (List String)} {main : Bool} {C : Component} (hG : Sane C.body) (ok : ch.Ok C.body)
    {A : Analysis} (h : layoutAnalysis ch junk C.body = some A)
    (hentry : ∀ s S, C.body.start = some s → C.body.get s = some S → S.comesFrom = []) (hreach : ∀ s, C.body.start = some s → ∀ b ∈ C.body.blocks, Leads C.body s b.id) :
    Layout.Navigable (toFn names dec main A C).graph := by
  obtain ⟨s, S, hs, hS⟩ := hG.start
  have hmem : ∀ {x X}, C.body.get x = some X → toLBlock names X ∈ (toFn names dec main A C).graph.blocks := fun hx => mem_map.2 ⟨_, get_mem hx, rfl⟩
  refine ⟨⟨toLBlock names S, hmem hS, ?_, hentry s S hs hS⟩, ?_, ?_, ?_⟩
  · show S.id = C.body.start.getD ""
    rw [hs, get_id hS]; rfl
  · intro B hB t ht
    obtain ⟨X, hX, rfl⟩ := mem_map.1 hB
    obtain ⟨Q, hQ⟩ := hG.coherent.targets X.id X (Inline.get_of_mem hG.coherent.ids hX) t ht
    exact ⟨_, hmem hQ, get_id hQ⟩
  · intro B hB
    obtain ⟨X, hX, rfl⟩ := mem_map.1 hB
    exact (analysis_dominance ok h hs "" X.id).2.2 (hreach s hs X hX)
  · intro p q path hp
    obtain ⟨st, s', D, F, h1, h2, h3, -, -, -, -, -, -, -, h4, h5⟩ := analysis_some h
    rw [hs] at h2
    cases h2
    have fin := digraph_finite (ok.keys st h1) h3
    have hp' : Graphs.domPath (digraphNodes C.body st ch.keys) (digraphSucc C.body st) s p q = some path := by rw [← h5]; exact hp
    by_cases hq : Graph.Reach (digraphSucc C.body st) s q
    · obtain ⟨g1, g2, -⟩ := (Graphs.dominance_paths fin p q hq).2 path hp'
      exact ⟨g1, g2⟩
    · unfold Graphs.domPath at hp'
      rw [if_neg fun hm => hq ((Graphs.mem_reached fin q).1 hm)] at hp'
      cases hp'

end

/-- Choices for a component: the orders in which the blocks are found. -/
def standard (liveFuel loopFuel : Nat) (G : BlockList) : Choices :=
  let keys := (G.blocks.map (·.id) ++ G.terminals).filter fun b => ((livenessOf liveFuel G).bind fun st => st.info b).isSome
  { keys := keys
    topo := ((livenessOf liveFuel G).bind fun st => G.start.map fun s => if s ∈ digraphNodes G st keys then Graphs.reached (digraphNodes G st keys) (digraphSucc G st) s
      else [s]).getD []
    liveFuel := liveFuel
    loopFuel := loopFuel }

/-- Choices exist for every component. -/
theorem standard_ok {G : BlockList} (hG : Analysable G) (m n : Nat) : (standard m n G).Ok G := by
  have keys : ∀ st, livenessOf m G = some st → ∀ b, b ∈ (standard m n G).keys ↔ (st.info b).isSome := by
    intro st h b
    show b ∈ List.filter _ _ ↔ _
    rw [mem_filter, h, Option.bind_some]
    refine ⟨fun h => h.2, fun hb => ⟨?_, hb⟩⟩
    obtain ⟨t, ht, hr⟩ := (Liveness.visited_iff (live_wf hG) h b).1 hb
    by_cases e : b = t
    · subst e; exact mem_append_right _ ht
    · refine mem_append_left _ ?_
      rcases Relation.ReflTransGen.cases_head hr with e' | ⟨c, hc, -⟩
      · exact absurd e' e
      · cases hx : G.get b with
        | none => rw [liveGraph_none hx] at hc; cases hc
        | some B => exact mem_map.2 ⟨B, get_mem hx, get_id hx⟩
  refine ⟨keys, fun st s h hs b => ?_⟩
  have e : (standard m n G).topo = if s ∈ digraphNodes G st (standard m n G).keys then Graphs.reached (digraphNodes G st (standard m n G).keys) (digraphSucc G st) s else [s] := by
    show (((livenessOf m G).bind _).getD [] : List String) = _
    unfold standard
    simp only [show livenessOf m G = some st from h, Option.bind_some, hs]
    rfl
  rw [e]
  split
  · rename_i hm
    exact Graphs.mem_reached (digraph_finite (keys st h) hm) b
  · rename_i hm
    rw [mem_singleton]
    constructor
    · rintro rfl; exact .refl
    · intro hr
      rcases Relation.ReflTransGen.cases_head hr with e' | ⟨c, hc, -⟩
      · exact e'.symm
      · exact absurd ((mem_nodes (keys st h)).2 (Or.inl (mem_digraphSucc.1 hc).1)) hm

/-! ### Examples -/

/-- A branch, after which a variable is used; `x` is a loop if `endless` holds. -/
def anaG (endless : Bool) : BlockList :=
  { start := some "e"
    terminals := ["t"]
    blocks := [
      { id := "e", jumpType := "conditional", instrs := [⟨"sload", ["0x00"], ["v0"]⟩, pushTag 1, ⟨"JUMPI", ["1", "v0"], []⟩], jumpTo := some "x", fallsTo := some "t", cond := some "v0" },
      { id := "x", jumpType := "unconditional", instrs := [⟨"sstore", ["0x00", "v0"], []⟩], jumpTo := some "y", comesFrom := if endless then ["e", "y"] else ["e"] },
      { id := "y", instrs := [], jumpType := if endless then "unconditional" else "terminal", jumpTo := if endless then some "x" else none, comesFrom := ["x"] },
      { id := "t", jumpType := "terminal", comesFrom := ["e"], instrs := [⟨"stop", [], []⟩] }] }

/-- The same with a second terminal block. -/
def anaOk : BlockList := { anaG false with terminals := ["t", "y"] }

def checkAnalysable (G : BlockList) : Bool :=
  decide ((G.blocks.map (·.id)).Nodup) &&
  (G.blocks.all fun P => (G.blocks.all fun Q => decide (P.id ∈ Q.comesFrom ↔ Q.id ∈ P.succs)) && P.comesFrom.all (fun x => (G.get x).isSome) &&
    P.succs.all (fun x => (G.get x).isSome) && decide P.comesFrom.Nodup && decide P.succs.Nodup && P.entries.all (fun x => decide (x ∈ P.comesFrom)) &&
    (P.entries.isEmpty || decide (P.entries = P.comesFrom)) && decide (P.instrs = phis P ++ code P) &&
    (phis P).all fun i => !P.entries.isEmpty && decide (i.ins.length = P.entries.length)) &&
  (G.start.bind G.get).isSome

theorem analysable_of_check {G : BlockList} (h : checkAnalysable G = true) : Analysable G := by
  unfold checkAnalysable at h
  simp only [Bool.and_eq_true, decide_eq_true_eq, all_eq_true, Bool.or_eq_true, List.isEmpty_iff] at h
  obtain ⟨⟨h1, h2⟩, h3⟩ := h
  have of := fun {x : String} {X : Block} (hx : G.get x = some X) => h2 X (get_mem hx)
  refine ⟨⟨⟨h1, ?_, ?_, ?_, ?_⟩, ?_, ?_, ?_⟩, ?_, ?_, ?_⟩
  · intro p q P Q hp hq
    rw [← get_id hp, ← get_id hq]
    exact (of hp).1.1.1.1.1.1.1.1 Q (get_mem hq)
  · intro q Q hq x hx
    exact Option.isSome_iff_exists.1 ((of hq).1.1.1.1.1.1.1.2 x hx)
  · intro q Q hq x hx
    exact Option.isSome_iff_exists.1 ((of hq).1.1.1.1.1.1.2 x hx)
  · intro q Q hq
    exact (of hq).1.1.1.1.1.2
  · rintro x X hX t ⟨e1, e2⟩
    have := (of hX).1.1.1.1.2
    unfold Block.succs at this
    rw [e1, e2] at this
    simp at this
  · intro q Q hq
    exact (of hq).1.1.1.2
  · obtain ⟨S, hS⟩ := Option.isSome_iff_exists.1 h3
    obtain ⟨s, hs, hS'⟩ := Option.bind_eq_some_iff.1 hS
    exact ⟨s, S, hs, hS'⟩
  · intro x X hX
    rcases (of hX).1.1.2 with e | e
    · exact Or.inl e
    · exact Or.inr (e ▸ Perm.refl _)
  · intro x X hX
    exact (of hX).1.2
  · intro x X hX i hi
    obtain ⟨a, b⟩ := (of hX).2 i hi
    refine ⟨?_, b⟩
    rintro e
    rw [e] at a
    cases a

theorem anaOk_analysable : Analysable anaOk := analysable_of_check (by decide +kernel)
theorem anaG_analysable : Analysable (anaG true) := analysable_of_check (by decide +kernel)

/-- The component meets the hypotheses, and its analyses are computed. -/
example : ((layoutAnalysis (standard 20 20 anaOk) true anaOk).map fun A => ["e", "x", "y", "t"].map fun b => (A.liveIn b, A.liveOut b, A.level b, A.inLoop b)) =
    some [([], ["v0"], some 0, false), (["v0"], [], some 1, false), ([], [], some 2, false), ([], [], some 1, false)] := by decide +kernel

example : ((layoutAnalysis (standard 20 20 anaOk) true anaOk).map fun A => (A.domPath "e" "y", A.domPath "x" "t", A.depth "x" "v0")) =
    some (some ["e", "x", "y"], none, [0, 0, 1]) := by decide +kernel

/-- A loop with an exit. -/
def anaLoop : BlockList :=
  { start := some "e"
    terminals := ["x"]
    blocks := [
      { id := "e", jumpType := "unconditional", instrs := [⟨"sload", ["0x00"], ["v0"]⟩], jumpTo := some "h" },
      { id := "h", jumpType := "conditional", instrs := [⟨"sload", ["v0"], ["v1"]⟩], jumpTo := some "b", fallsTo := some "x", cond := some "v1", comesFrom := ["e", "b"] },
      { id := "b", jumpType := "unconditional", instrs := [⟨"sstore", ["0x00", "v1"], []⟩], jumpTo := some "h", comesFrom := ["h"] },
      { id := "x", jumpType := "terminal", comesFrom := ["h"], instrs := [⟨"stop", [], []⟩] }] }

example : Analysable anaLoop := analysable_of_check (by decide +kernel)

example : ((layoutAnalysis ⟨["x", "h", "b", "e"], ["e", "h", "b", "x"], 20, 20⟩ true anaLoop).map fun A => (["e", "h", "b", "x"].map A.inLoop, A.depth "e" "v0", A.depth "b" "v0", A.depth "x" "v0")) =
    some ([false, true, true, false], [1, 0, 0], [5, 100, 100], [-1]) := by decide +kernel

/-- **Finding.** An endless loop behind a branch: the component is well formed and its liveness analysis ends, and still the layout generation raises an exception before it
starts, whatever the orders are. -/
theorem endless_loop_fails (junk : Bool) (ch : Choices) (ok : ch.Ok (anaG true)) : layoutAnalysis ch junk (anaG true) = none := by
  cases h : layoutAnalysis ch junk (anaG true) with
  | none => rfl
  | some A =>
    exfalso
    obtain ⟨st, s, D, F, h1, h2, -⟩ := analysis_some h
    have hs : s = "e" := by
      have : (anaG true).start = some "e" := rfl
      rw [h2] at this
      exact Option.some.inj this
    subst hs
    have hall := analysed_of_some ok h h1 h2
    have hx : Graph.Reach (digraphSucc (anaG true) st) "e" "x" := .tail .refl (mem_digraphSucc.2 ⟨hall "e" .refl, by decide +kernel⟩)
    obtain ⟨t, ht, hr⟩ := (Liveness.visited_iff (live_wf anaG_analysable) h1 "x").1 (hall "x" hx)
    have ht' : t = "t" := by simpa [anaG] using ht
    subst ht'
    have closed : ∀ b, Graph.Reach (fun b => (liveGraph (anaG true) b).succs) "x" b → b ∈ ["x", "y"] := by
      intro b hb
      induction hb with
      | refl => decide
      | tail _ hab ih =>
        rename_i a b _
        have : ∀ a ∈ ["x", "y"], ∀ b ∈ (liveGraph (anaG true) a).succs, b ∈ ["x", "y"] := by decide +kernel
        exact this a ih b hab
    exact absurd (closed "t" hr) (by decide)

example : (livenessOf 20 (anaG true)).isSome := by decide +kernel

end Grey.Lower
