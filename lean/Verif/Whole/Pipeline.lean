/-
C86: the compiler as one function, which fails whenever an assertion fails, and what it writes when it does not fail.
-/
import Verif.Whole.Analysed
import Verif.Whole.PipelineSpec
import Verif.Whole.Tags
import Verif.Program.Assigned
namespace Grey.Whole
open List Grey.Cfg Grey.Inline Grey.Lower Grey.Sfs Grey.Program Grey.SymExec Grey.Front Grey.Parser

/-! ### Model -/

/-- `cfg_block_spec_ids` for a block (src/greedy/ids_from_spec.py:29-53), where `sched` gives the ids that the scheduler returns: a block without specification has
no `admits_junk` (line 32), a specification that cannot be built is an exception in the layout generation (src/liveness/layout_generation.py:244-246), and the
assertion of line 49 checks the ids. -/
def acceptsBlock (F : Fn) (st : Layout.DState) (sched : String → List String) (B : Layout.LBlock) : Bool :=
  match st.specs.lookup B.id with
  | none => false
  | some lay =>
    match buildSpec (F.instrs B.id) (F.split B.id) [] (Layout.substDuplicates lay.1) lay.2 with
    | none => false
    | some (built, deps) => check ⟨built.entries.map (·.instr), built.src, built.tgt, deps⟩ (sched B.id) (F.graph.canJunk B.id)

/-- The layouts of a component (src/liveness/layout_generation.py:338-376) and `cfg_block_list_spec_ids` (src/greedy/ids_from_spec.py:56-73). -/
def acceptsFn (P : Prog) (sched : String → String → List String) (f : String) : Bool :=
  match P.fns f with
  | none => false
  | some F =>
    match Layout.drive F.graph with
    | .error _ => false
    | .ok st => F.graph.blocks.all (acceptsBlock F st (sched f))

/-- The analyses of a component, if they do not fail (src/liveness/layout_generation.py:73-126). -/
def computed (ch : Option String → Choices) (junk : Option String → Bool) (O' : Obj) (c : Option String) : Option Analysis :=
  (O'.comp c).bind fun C => layoutAnalysis (ch c) (junk c) C.body

/-- Analyses that are never used. -/
def noAnalysis : Analysis := ⟨false, fun _ => false, fun _ => [], fun _ => [], fun _ _ => [], fun _ => none, fun _ _ => none⟩

/-- The program that the layout generation and the schedules are about. -/
def programOf (names' : List String) (dec : String → String × Option (List String)) (main : String) (ch : Option String → Choices) (junk : Option String → Bool)
    (O' : Obj) : Prog := toProg names' dec main (fun c => (computed ch junk O' c).getD noAnalysis) O'

/-- The number of blocks of all components. -/
def allBlocks (P : Prog) (fs : List String) : Nat := (fs.map fun f => ((P.fns f).map fun F => F.graph.blocks.length).getD 0).sum

/-- From an object to its assembly (`analyze_single_cfg`, src/execution/main_execution.py:49-104): the front end, the analyses, the layouts and specifications, the schedules `sched` with
the assertion that they are right, and the reconstruction of the assembly. Every exception makes the result `none`. Simplification: what the
scheduler returns is a parameter and contains no stored variables, so that there is nothing to repair. -/
def compileObject (names order : List String) (dec : String → String × Option (List String)) (main : String) (ch : Option String → Choices)
    (junk : Option String → Bool) (sched : String → String → List String) (O : Obj) : Option (List Output.Asm) :=
  (frontEnd names order O).bind fun r =>
    if (none :: r.1.map some).all fun c => (computed ch junk r.2.1 c).isSome then
      let P := programOf r.1 dec main ch junk r.2.1
      if (main :: r.1).all (acceptsFn P sched) then assemble P r.1 (tagOf r.2.2) sched (allBlocks P (main :: r.1)) else none
    else none

/-! ### Proofs -/

/-- The operations after renaming, inlining and combining are as before. -/
theorem evmLike_after {C : Type} {names : List String} {O O1 : Obj} {I : Interp Nat (Loc → C)} {dec : String → String × Option (List String)}
    (p5 : ∀ c C, O1.comp c = some C → ∀ x X, C.body.get x = some X → ∀ i ∈ code X, FromSource O i ∧ (i.op ∈ names → ∃ F, O1.fns i.op = some F))
    (h : EvmLike names dec I O) : EvmLike (names.filter fun f => (O1.fns f).isSome) dec I O1 := by
  refine ⟨?_, ?_, h.comm, h.tag⟩
  · intro c C x X i hC hX hi ho
    obtain ⟨c0, C0, x0, X0, i0, q1, q2, q3, q4, q5, q6, q7, q8⟩ := source_op p5 hC hX hi
    rw [q4, q5, q6]
    exact h.ops c0 C0 x0 X0 i0 q1 q2 q3 (q8 ho)
  · intro c C x X i c' C' x' X' j hC hX hi ho hC' hX' hj ho' e
    obtain ⟨c0, C0, x0, X0, i0, q1, q2, q3, q4, q5, q6, q7, q8⟩ := source_op p5 hC hX hi
    obtain ⟨c1, C1, x1, X1, j0, r1, r2, r3, r4, r5, r6, r7, r8⟩ := source_op p5 hC' hX' hj
    rw [q4, r4] at e ⊢
    exact h.same c0 C0 x0 X0 i0 c1 C1 x1 X1 j0 q1 q2 q3 (q8 ho) r1 r2 r3 (r8 ho') e

/-- Names that the front end produces: variables and constants, tags, and the places to return to. -/
def Made (v : String) : Prop := Neat v ∨ (∃ t : Nat, v = toString t) ∨ ∃ f, v = "out_" ++ f

theorem made_fresh {v : String} (h : Made v) : ¬ Generated v ∧ v ≠ "bottom" ∧ ¬ Padding v := by
  rcases h with h | ⟨t, rfl⟩ | ⟨f, rfl⟩
  · exact ⟨(neat_fresh h).2.1, (neat_fresh h).2.2, (neat_fresh h).1⟩
  · exact ⟨(tag_fresh t).2.1, (tag_fresh t).2.2, (tag_fresh t).1⟩
  · exact ⟨(out_proper f).1.notGen, (out_proper f).1.notBottom, (out_proper f).2⟩

section
variable {C : Type} {names : List String} {R : Option String → Option String} {f2t : List (String × Nat)} {O : Obj} {T : TagDict} {H O' : Obj}
  {dec : String → String × Option (List String)} {I : Interp Nat (Loc → C)} {main : String} {A : Option String → Analysis} {arity : String → Nat} {val : Nat → Nat}

theorem ret_made (hp : PartsOk names R H) {comp : Option String} {o : String} (h : R comp = some o) : Made o := by
  cases comp with
  | none => rw [hp.ret.1] at h; cases h
  | some f =>
    rcases hp.ret.2 f with h1 | h1
    · rw [h1] at h; cases h
    · rw [h1] at h; exact Or.inr (Or.inr ⟨f, (Option.some.inj h).symm⟩)

theorem deco_made (hp : PartsOk names R H) {comp : Option String} {X : Block} {D : List Instr} {raw : Prop} (h : Deco names H T (R comp) raw X D)
    (hn : ∀ i ∈ X.instrs, ∀ v ∈ i.ins ++ i.outs, Neat v) (hc : ∀ v, X.cond = some v → Neat v) : ∀ i ∈ D, ∀ v ∈ i.ins ++ i.outs, Made v := by
  have own : ∀ i ∈ X.instrs, ∀ v ∈ i.ins ++ i.outs, Made v := fun i hi v hv => Or.inl (hn i hi v hv)
  have tag : ∀ t : Nat, ∀ v ∈ (pushTag t).ins ++ (pushTag t).outs, Made v := fun t v hv => by
    have : v = toString t := by simpa [pushTag] using hv
    exact Or.inr (Or.inl ⟨t, this⟩)
  have after : ∀ {ts l : List Instr}, (∀ i ∈ ts, ∀ v ∈ i.ins ++ i.outs, Made v) → (∀ i ∈ l, ∀ v ∈ i.ins ++ i.outs, Made v) →
      ∀ i ∈ afterPhis ts l, ∀ v ∈ i.ins ++ i.outs, Made v := by
    intro ts l h1 h2 i hi
    unfold afterPhis at hi
    rcases mem_append.1 hi with hi | hi
    · rcases mem_append.1 hi with hi | hi
      · exact h2 i ((takeWhile_prefix _).subset hi)
      · exact h1 i hi
    · exact h2 i ((dropWhile_suffix _).subset hi)
  have call : ∀ {l : List Instr} {i : Instr} (ft : Nat) (rt : Option Nat), X.instrs = l ++ [i] → ∀ j ∈ l ++ [tagCall ft rt i], ∀ v ∈ j.ins ++ j.outs, Made v := by
    intro l i ft rt hl j hj v hv
    have hi := own i (by rw [hl]; simp)
    rcases mem_append.1 hj with hj | hj
    · exact own j (by rw [hl]; exact mem_append_left _ hj) v hv
    · obtain rfl := mem_singleton.1 hj
      simp only [tagCall, mem_append, mem_cons, mem_map] at hv
      rcases hv with ((rfl | hv) | ⟨t, -, rfl⟩) | hv
      · exact Or.inr (Or.inl ⟨ft, rfl⟩)
      · exact hi v (mem_append_left _ hv)
      · exact Or.inr (Or.inl ⟨t, rfl⟩)
      · exact hi v (mem_append_right _ hv)
  cases h with
  | exit => exact own
  | jump y t =>
    intro i hi v hv
    rcases mem_append.1 hi with hi | hi
    · exact own i hi v hv
    · simp only [mem_cons, not_mem_nil, or_false] at hi
      rcases hi with rfl | rfl
      · exact tag t v hv
      · exact Or.inr (Or.inl ⟨t, by simpa using hv⟩)
  | branch y z c t hty hj hf hcond =>
    intro i hi v hv
    rcases mem_append.1 hi with hi | hi
    · exact own i hi v hv
    · simp only [mem_cons, not_mem_nil, or_false] at hi
      rcases hi with rfl | rfl
      · exact tag t v hv
      · simp only [append_nil, mem_cons, not_mem_nil, or_false] at hv
        rcases hv with rfl | rfl
        · exact Or.inr (Or.inl ⟨t, rfl⟩)
        · exact Or.inl (hc _ hcond)
  | ret o l i hty hj hf hl hi ho =>
    intro j hj v hv
    rcases mem_append.1 hj with hj | hj
    · exact own j (by rw [hl]; exact mem_append_left _ hj) v hv
    · obtain rfl := mem_singleton.1 hj
      simp only [cons_append, mem_cons] at hv
      rcases hv with rfl | hv
      · exact ret_made hp ho
      · exact own i (by rw [hl]; simp) v hv
  | sub => exact own
  | call l i n ft rt ts hts hty hl =>
    refine after (fun j hj => ?_) (call ft (some rt) hl)
    obtain ⟨t, -, rfl⟩ := mem_map.1 hj
    exact tag t
  | tail l i ft hty hl =>
    refine after (fun j hj => ?_) (call ft none hl)
    obtain rfl := mem_singleton.1 hj
    exact tag ft

/-- All names of a lowered component. -/
theorem lowered_names (hr : Ready names R T H O' dec I main) (hF : ∀ c C, H.comp c = some C → FineComp names C) {comp : Option String} {C' : Component}
    (hC' : O'.comp comp = some C') {x : String} {B : Block} (hB : C'.body.get x = some B) : ∀ i ∈ B.instrs, ∀ v ∈ i.ins ++ i.outs, Made v := by
  obtain ⟨C, hC, hd⟩ := comp_back hr hC'
  obtain ⟨X, D, hX, rfl, hD⟩ := block_back hd hB
  exact deco_made hr.parts hD ((hF comp C hC).1.neat x X hX) ((hF comp C hC).1.neatCond x X hX)

/-- What is live has a name of the component. -/
theorem live_used {G : BlockList} {Q : String → Prop} (h : ∀ x B, G.get x = some B → ∀ i ∈ B.instrs, ∀ v ∈ i.ins ++ i.outs, Q v) {e : Bool} {b x : String}
    (hl : Liveness.Live (liveGraph G) e b x) : Q x := by
  have ins : ∀ {b : String} {i : Liveness.Instr}, i ∈ (liveGraph G b).instrs → ∀ v ∈ i.ins, Q v := by
    intro b i hi v hv
    unfold liveGraph at hi
    cases hB : G.get b with
    | none => rw [hB] at hi; cases hi
    | some B =>
      rw [hB] at hi
      obtain ⟨j, hj, rfl⟩ := mem_map.1 hi
      exact h b B hB j hj v (mem_append_left _ hv)
  induction hl with
  | use hu =>
    obtain ⟨pre, i, post, e, -, hx, -⟩ := hu
    exact ins (by rw [e]; simp) _ hx
  | thru _ _ ih => exact ih
  | phi hs ha =>
    obtain ⟨k, i, -, hi, -, hk, -⟩ := ha
    exact ins hi _ (mem_of_getElem? hk)
  | succ _ _ _ ih => exact ih

/-- The instructions of the blocks are pushes of tags and operations of the object. -/
theorem block_ops (hv : Inv names R f2t O (fun _ _ => False) H O' T) (hr : Ready names R T H O' dec I main) (hF : ∀ c C, H.comp c = some C → FineComp names C)
    {f : String} {F : Fn} (h : (toProg names dec main A O').fns f = some F) {B : Layout.LBlock} (hB : B ∈ F.graph.blocks) {i : Ins} (hi : i ∈ F.instrs B.id) :
    (∃ t, i = toIns dec (pushTag t)) ∨ ∃ j, i = toIns dec j ∧ Ordinary names dec I j ∧ (∀ v ∈ j.ins, Neat v) ∧
      ∃ c C x X, O.comp c = some C ∧ C.body.get x = some X ∧ j ∈ code X ∧ j.op ∉ ["functionReturn"] ++ Lower.haltOps ++ names := by
  obtain ⟨comp, C, C', rfl, hC, hC', hd, rfl⟩ := prog_fn hr h
  obtain ⟨X, D, s, body, e, hX, hD, hBe, hview, hs, hins, hsp, hph⟩ := prog_block (A := A) hr hC hd hB
  rw [hins] at hi
  obtain ⟨j, hj, rfl⟩ := mem_map.1 hi
  obtain ⟨pre, own, post, rfl, hsub, hnd, hown⟩ := view_body (hr.parts.blocks comp C hC _ X hX) hview (tags_differ hv hF hC hX)
  rcases mem_tagged hj with ⟨t, rfl⟩ | hj
  · exact Or.inl ⟨t, rfl⟩
  · right
    obtain ⟨C0, x0, X0, g1, g2, g3⟩ := hv.source comp C _ X j hC hX (hsub.subset hj)
    exact ⟨j, rfl, hr.ordinary comp C _ X j hC hX (hsub.subset hj) (hown j hj),
      fun v hv' => (hF comp C hC).1.neat _ X hX j (mem_filter.1 (hsub.subset hj)).1 v (mem_append_left _ hv'), comp, C0, x0, X0, g1, g2, g3, hown j hj⟩

/-- What the instruction of a tag does. -/
theorem tag_ins (hr : Ready names R T H O' dec I main) (hval : TagMeaning I val) (t : Nat) (env : String → Nat) (w : Loc → C) :
    I.ins (toIns dec (pushTag t)) env w = ([val t], w) := by
  have hop := dec_pushTag hr t
  have hname : (toIns dec (pushTag t)).name = "PUSH [TAG]" := by unfold Ins.name; rw [hop]; decide +kernel
  unfold Interp.ins
  rw [if_neg (by rw [hop]; decide), if_neg (by rw [hop]; decide), hname]
  unfold Ins.extra
  rw [if_neg (by rw [hop]; decide), if_pos hname]
  exact hval.push t w

/-- What the instruction of an ordinary operation does. -/
theorem own_ins {j : Instr} (hj : Ordinary names dec I j) (env : String → Nat) (w : Loc → C) :
    I.ins (toIns dec j) env w = operation I (dec j.op).1 (dec j.op).2 (j.ins.map (I.read env)) w :=
  ins_eq hj (e := I.read env) (fun _ _ => rfl) w

/-- The hypotheses of C51 about instructions and their meaning. -/
theorem block_meets (hv : Inv names R f2t O (fun _ _ => False) H O' T) (hr : Ready names R T H O' dec I main) (hF : ∀ c C, H.comp c = some C → FineComp names C)
    (hval : TagMeaning I val) (hevm : EvmLike names dec I O) {f : String} {F : Fn} (h : (toProg names dec main A O').fns f = some F) {B : Layout.LBlock}
    (hB : B ∈ F.graph.blocks) {src : List String} (h1 : ((F.instrs B.id).flatMap (·.outArgs)).Nodup) (h2 : ∀ i ∈ F.instrs B.id, ∀ v ∈ i.outArgs, Proper v)
    (h3 : ∀ pre i post, F.instrs B.id = pre ++ i :: post → ∀ v ∈ i.outArgs, ∀ j ∈ pre ++ [i], v ∉ j.inArgs) (h4 : ∀ v ∈ src, ¬ Generated v)
    (h5 : ∀ i ∈ F.instrs B.id, ∀ v ∈ i.outArgs, v ∉ src) : Sfs.BlockOk (F.instrs B.id) src ∧ InterpOk I (F.instrs B.id) ∧ LocalOk I (F.instrs B.id) := by
  have kinds := fun {i : Ins} (hi : i ∈ F.instrs B.id) => block_ops hv hr hF h hB hi
  have tagName : ∀ t, (toIns dec (pushTag t)).name = "PUSH [TAG]" := fun t => by unfold Ins.name; rw [dec_pushTag hr t]; decide +kernel
  have ownName : ∀ j, (toIns dec j).name = (dec j.op).1.map Char.toUpper := fun j => rfl
  have one : ∀ {l : List String}, l.length = 1 → ∃ o, l = [o] := fun hl => length_eq_one_iff.1 hl
  refine ⟨⟨?_, ?_, ?_, ?_, ?_, ?_, ?_, ?_, h1, h3, h2, ?_, h4, h5⟩, ⟨?_, ?_, ?_, hevm.comm⟩, ⟨?_, ?_, ?_⟩⟩
  · intro i hi
    rcases kinds hi with ⟨t, rfl⟩ | ⟨j, rfl, ho, hn, c, C, x, X, g1, g2, g3, g4⟩
    · right
      rw [tagName, dec_pushTag hr t]
      decide +kernel
    · exact (hevm.ops c C x X j g1 g2 g3 g4).known
  · intro i hi
    rcases kinds hi with ⟨t, rfl⟩ | ⟨j, rfl, ho, hn, c, C, x, X, g1, g2, g3, g4⟩
    · rw [dec_pushTag hr t]; decide +kernel
    · exact (hevm.ops c C x X j g1 g2 g3 g4).prefixOnly
  · intro i hi
    rcases kinds hi with ⟨t, rfl⟩ | ⟨j, rfl, ho, hn, c, C, x, X, g1, g2, g3, g4⟩
    · rw [dec_pushTag hr t]; intro e; exact absurd e (by decide)
    · intro e
      obtain ⟨e1, e2⟩ := (hevm.ops c C x X j g1 g2 g3 g4).literal e
      obtain ⟨a, ha⟩ := one e1
      obtain ⟨b, hb⟩ := one e2
      exact ⟨a, b, ha, hb⟩
  · intro i hi
    rcases kinds hi with ⟨t, rfl⟩ | ⟨j, rfl, ho, hn, c, C, x, X, g1, g2, g3, g4⟩
    · rw [dec_pushTag hr t]; intro e; exact absurd e (by decide)
    · exact (hevm.ops c C x X j g1 g2 g3 g4).push
  · intro i hi
    rcases kinds hi with ⟨t, rfl⟩ | ⟨j, rfl, ho, hn, c, C, x, X, g1, g2, g3, g4⟩
    · rw [dec_pushTag hr t]; intro e; exact absurd e (by decide +kernel)
    · intro e
      obtain ⟨e1, e2⟩ := (hevm.ops c C x X j g1 g2 g3 g4).pushes e
      exact ⟨length_eq_zero_iff.1 e1, one e2⟩
  · intro i hi
    rcases kinds hi with ⟨t, rfl⟩ | ⟨j, rfl, ho, hn, c, C, x, X, g1, g2, g3, g4⟩
    · rw [tagName]; intro e; exact absurd e (by decide)
    · exact (hevm.ops c C x X j g1 g2 g3 g4).noPush
  · intro i hi e
    rcases kinds hi with ⟨t, rfl⟩ | ⟨j, rfl, ho, -⟩
    · exact dec_pushTag hr t
    · exact absurd e ho.notTag
  · intro i hi k hk e
    rcases kinds hi with ⟨t, rfl⟩ | ⟨j, rfl, ho, hn, c, C, x, X, g1, g2, g3, g4⟩
    · rcases kinds hk with ⟨t', rfl⟩ | ⟨j', rfl, ho', -⟩
      · rfl
      · rw [tagName] at e
        exact absurd e.symm ho'.notTag
    · rcases kinds hk with ⟨t', rfl⟩ | ⟨j', rfl, ho', hn', c', C', x', X', g1', g2', g3', g4'⟩
      · rw [tagName] at e
        exact absurd e ho.notTag
      · exact hevm.same c C x X j c' C' x' X' j' g1 g2 g3 g4 g1' g2' g3' g4' e
  · intro i hi v hv'
    rcases kinds hi with ⟨t, rfl⟩ | ⟨j, rfl, ho, hn, -⟩
    · cases hv'
    · exact (neat_fresh (hn v hv')).2
  · intro i hi env w
    rcases kinds hi with ⟨t, rfl⟩ | ⟨j, rfl, ho, -⟩
    · rw [tag_ins hr hval]; rfl
    · rw [own_ins ho]
      exact ho.arity _ _ (length_map ..)
  · intro i hi he l args w
    rcases kinds hi with ⟨t, rfl⟩ | ⟨j, rfl, ho, hn, c, C, x, X, g1, g2, g3, g4⟩
    · rw [tagName]; exact hevm.tag l args w
    · exact (hevm.ops c C x X j g1 g2 g3 g4).quiet he l args w
  · intro i hi
    rcases kinds hi with ⟨t, rfl⟩ | ⟨j, rfl, ho, hn, c, C, x, X, g1, g2, g3, g4⟩
    · rw [dec_pushTag hr t]; intro e; exact absurd e (by decide +kernel)
    · exact (hevm.ops c C x X j g1 g2 g3 g4).const
  · intro i hi env w w' hw
    rcases kinds hi with ⟨t, rfl⟩ | ⟨j, rfl, ho, hn, c, C, x, X, g1, g2, g3, g4⟩
    · rw [tag_ins hr hval, tag_ins hr hval]
    · rw [own_ins ho, own_ins ho]
      exact (hevm.ops c C x X j g1 g2 g3 g4).result _ w w' (length_map ..) hw
  · intro i hi env w w' hw
    rcases kinds hi with ⟨t, rfl⟩ | ⟨j, rfl, ho, hn, c, C, x, X, g1, g2, g3, g4⟩
    · rw [tag_ins hr hval, tag_ins hr hval]
      exact fun l hl => hl
    · rw [own_ins ho, own_ins ho]
      exact (hevm.ops c C x X j g1 g2 g3 g4).written _ w w' (length_map ..) hw
  · intro i hi env w l hw
    rcases kinds hi with ⟨t, rfl⟩ | ⟨j, rfl, ho, hn, c, C, x, X, g1, g2, g3, g4⟩
    · rw [tag_ins hr hval]
    · rw [own_ins ho]
      exact (hevm.ops c C x X j g1 g2 g3 g4).untouched _ w l (length_map ..) hw

theorem splitInstr_mem {X : Block} {i : Instr} (h : splitInstr names X = some i) : i ∈ X.instrs :=
  mem_of_getLast? (Option.filter_eq_some_iff.1 h).1

/-- No name on the stacks of the layouts is one of those that are generated for constants. -/
theorem stack_names (hv : Inv names R f2t O (fun _ _ => False) H O' T) (hr : Ready names R T H O' dec I main) (hF : ∀ c C, H.comp c = some C → FineComp names C)
    {ch : Option String → Choices} {junk : Option String → Bool} (hA : AnalysedBy ch junk O' A) {f : String} {F : Fn} (h : (toProg names dec main A O').fns f = some F) :
    Layout.NamesOf F.graph fun v => ¬ Generated v := by
  obtain ⟨comp, C, C', rfl, hC, hC', hd, rfl⟩ := prog_fn hr h
  have hall := fun x B (hB : C'.body.get x = some B) => lowered_names hr hF hC' hB
  have gen := fun {v : String} (hv : Made v) => (made_fresh hv).1
  have hlive := analysis_live (lowered_analysable hr hF hC') (hA comp C' hC')
  have bGen : ∀ v : String, v.toList.head? = some 'b' → ¬ Generated v := by
    rintro v hb ⟨j, rfl⟩
    rw [head_s] at hb
    cases hb
  have inst : ∀ {B : Layout.LBlock}, B ∈ (toFn names dec comp.isNone (A comp) C').graph.blocks → ∃ X, B = toLBlock names X ∧ ∀ i ∈ X.instrs, ∀ v ∈ i.ins ++ i.outs, Made v := by
    intro B hB
    obtain ⟨X, hX, rfl⟩ := mem_map.1 hB
    exact ⟨X, rfl, hall X.id X (Inline.get_of_mem hd.ids hX)⟩
  refine ⟨?_, ?_, ?_, ?_, ?_, ?_, fun n => bGen _ (head_b n), bGen _ (by decide)⟩
  · intro x hx
    rw [inputs_eq (dec := dec) (A := A) hd] at hx
    rcases mem_append.1 hx with hx | hx
    · exact gen (Or.inl ((hF comp C hC).2.2.1 x (mem_reverse.1 hx)))
    · exact gen (ret_made hr.parts (Option.mem_toList.1 hx))
  · intro b x hx
    rcases (hlive b).2 x hx with hx | ⟨i, hi, -, hx⟩
    · exact gen (live_used hall hx)
    · unfold liveGraph at hi
      cases hB : C'.body.get b with
      | none => rw [hB] at hi; cases hi
      | some B =>
        rw [hB] at hi
        obtain ⟨j, hj, rfl⟩ := mem_map.1 hi
        exact gen (hall b B hB j hj x (mem_append_right _ hx))
  · exact fun b x hx => gen (live_used hall ((hlive b).1 x hx))
  · intro B hB x hx
    obtain ⟨X, rfl, hX⟩ := inst hB
    have hx' : x ∈ ((splitInstr names X).map (·.outs)).getD [] := hx
    cases hs : splitInstr names X with
    | none => rw [hs] at hx'; cases hx'
    | some i =>
      rw [hs] at hx'
      exact gen (hX i (splitInstr_mem hs) x (mem_append_right _ hx'))
  · intro B hB p hp
    obtain ⟨X, rfl, hX⟩ := inst hB
    obtain ⟨i, hi, rfl⟩ := mem_map.1 hp
    have hi' := (mem_filter.1 hi).1
    cases ho : i.outs with
    | nil =>
      rintro ⟨j, hj⟩
      have hj' : (i.outs.headD "").toList.head? = some 's' := by rw [ho, show ([] : List String).headD "" = "s" ++ toString j from hj, head_s]
      rw [ho] at hj'
      cases hj'
    | cons o os =>
      exact gen (hX i hi' o (mem_append_right _ (by rw [ho]; simp)))
  · intro B hB p hp x hx
    obtain ⟨X, rfl, hX⟩ := inst hB
    obtain ⟨i, hi, rfl⟩ := mem_map.1 hp
    exact gen (hX i (mem_filter.1 hi).1 x (mem_append_left _ hx))

theorem lookup_mem {α : Type} {l : List (String × α)} (hn : (l.map (·.1)).Nodup) {k : String} {v : α} (h : (k, v) ∈ l) : l.lookup k = some v := by
  induction l with
  | nil => cases h
  | cons p l ih =>
    rw [map_cons, nodup_cons] at hn
    rcases mem_cons.1 h with rfl | hm
    · simp
    · have : k ≠ p.1 := fun e => hn.1 (by rw [← e]; exact mem_map.2 ⟨_, hm, rfl⟩)
      rw [lookup_cons, show (k == p.1) = false by simpa using this]
      exact ih hn.2 hm

/-- The exceptions that the compiler has not raised. -/
theorem acceptsFn_true {P : Prog} {sched : String → String → List String} {f : String} {F : Fn} (hF : P.fns f = some F) (h : acceptsFn P sched f = true) :
    ∃ st, Layout.drive F.graph = .ok st ∧ ∀ B ∈ F.graph.blocks, ∃ lay built deps, st.specs.lookup B.id = some lay ∧
      buildSpec (F.instrs B.id) (F.split B.id) [] (Layout.substDuplicates lay.1) lay.2 = some (built, deps) ∧
      check ⟨built.entries.map (·.instr), built.src, built.tgt, deps⟩ (sched f B.id) (F.graph.canJunk B.id) = true := by
  unfold acceptsFn at h
  rw [hF] at h
  cases hd : Layout.drive F.graph with
  | error e => simp [hd] at h
  | ok st =>
    simp only [hd, all_eq_true] at h
    refine ⟨st, rfl, fun B hB => ?_⟩
    have hb := h B hB
    unfold acceptsBlock at hb
    cases hl : st.specs.lookup B.id with
    | none => simp [hl] at hb
    | some lay =>
      simp only [hl] at hb
      cases hs : buildSpec (F.instrs B.id) (F.split B.id) [] (Layout.substDuplicates lay.1) lay.2 with
      | none => simp [hs] at hb
      | some q =>
        obtain ⟨built, deps⟩ := q
        simp only [hs] at hb
        exact ⟨lay, built, deps, rfl, hs, hb⟩

/-- Blocks that can be reached in the layout generation can be reached in the component. -/
theorem reached {comp : Option String} {K K' : Component} (hd : DecoComp names H T (R comp) (fun _ => False) K K') {an : Analysis} {s : String} (hs : K.body.start = some s) {x : String}
    (hx : Layout.Reachable (toFn names dec comp.isNone an K').graph x) : Graph.Reach K.body.succ s x := by
  induction hx with
  | start =>
    show Graph.Reach K.body.succ s (K'.body.start.getD "")
    rw [hd.start, hs]; exact .refl
  | step _ hB hS hmem ih =>
    refine .tail ih ?_
    obtain ⟨X, hX, rfl⟩ := mem_map.1 hB
    obtain ⟨X0, D, h2, h3, -⟩ := block_back hd (Inline.get_of_mem hd.ids hX)
    refine Prep.mem_succ.2 ⟨X0, h2, ?_⟩
    rw [h3] at hmem
    exact hmem

/-- No block uses a variable before it assigns it. -/
theorem used_later (hv : Inv names R f2t O (fun _ _ => False) H O' T) (hr : Ready names R T H O' dec I main) (hF : ∀ c C, H.comp c = some C → FineComp names C)
    {f : String} {F : Fn} (h : (toProg names dec main A O').fns f = some F) {B : Layout.LBlock} (hB : B ∈ F.graph.blocks) (hreach : Layout.Reachable F.graph B.id) :
    ∀ pre i post, F.instrs B.id = pre ++ i :: post → ∀ v ∈ i.outArgs, ∀ j ∈ pre ++ [i], v ∉ j.inArgs := by
  obtain ⟨comp, C, C', rfl, hC, hC', hd, rfl⟩ := prog_fn hr h
  obtain ⟨X, D, s, body, e, hX, hD, hBe, hview, hs, hins, hsp, hph⟩ := prog_block (A := A) hr hC hd hB
  obtain ⟨st, S, hst, -⟩ := (hr.parts.sane comp C hC).start
  have hrx := reached hd hst hreach
  obtain ⟨hfine, -, -, hdef⟩ := hF comp C hC
  obtain ⟨pt, own, qt, rfl, hsub, -, -⟩ := view_body (hr.parts.blocks comp C hC _ X hX) hview (tags_differ hv hF hC hX)
  have hneat : ∀ k ∈ own, ∀ v ∈ k.ins, ∀ t : Nat, v ≠ toString t := fun k hk v hv' t e =>
    tag_not_plain t (e ▸ Front.Neat.plain (hfine.neat _ X hX k (mem_filter.1 (hsub.subset hk)).1 v (mem_append_left _ hv')))
  rw [hins]
  intro pre i post e
  obtain ⟨pre', l', e1, rfl, e2⟩ := map_eq_append_iff.1 e
  obtain ⟨i', post', rfl, rfl, rfl⟩ := map_eq_cons_iff.1 e2
  intro v hv' j hj
  obtain ⟨j', hj', rfl⟩ : ∃ j' ∈ pre' ++ [i'], j = toIns dec j' := by
    rcases mem_append.1 hj with h1 | h1
    · obtain ⟨j', h2, rfl⟩ := mem_map.1 h1
      exact ⟨j', mem_append_left _ h2, rfl⟩
    · exact ⟨i', by simp, mem_singleton.1 h1⟩
  show v ∉ j'.ins
  replace hv' : v ∈ i'.outs := hv'
  have hjm : j' ∈ pt.map pushTag ++ own ++ qt.map pushTag := by
    rw [e1]
    rcases mem_append.1 hj' with h1 | h1
    · exact mem_append_left _ h1
    · rw [mem_singleton.1 h1]; simp
  rcases mem_tagged hjm with ⟨t, rfl⟩ | hjo
  · simp [pushTag]
  have him : i' ∈ pt.map pushTag ++ own ++ qt.map pushTag := by rw [e1]; simp
  intro hin
  rcases mem_tagged him with ⟨t, rfl⟩ | hio
  · have : v = toString t := by simpa [pushTag] using hv'
    exact hneat j' hjo v hin t this
  -- both are instructions of the block itself
  have hq : ∀ k : Instr, (k ∈ pt.map pushTag ∨ k ∈ qt.map pushTag) → v ∉ k.ins ∧ v ∉ k.outs := by
    intro k hk
    have : ∃ t, k = pushTag t := by
      rcases hk with hk | hk <;> obtain ⟨t, -, rfl⟩ := mem_map.1 hk <;> exact ⟨t, rfl⟩
    obtain ⟨t, rfl⟩ := this
    refine ⟨by simp [pushTag], ?_⟩
    have : v ≠ toString t := hneat j' hjo v hin t
    simpa [pushTag] using this
  let P : Instr → Bool := fun k => v ∈ k.ins ++ k.outs
  have hfil : (pt.map pushTag ++ own ++ qt.map pushTag).filter P = own.filter P := by
    have none : ∀ l : List Nat, (∀ k ∈ l.map pushTag, v ∉ k.ins ∧ v ∉ k.outs) → (l.map pushTag).filter P = [] := by
      intro l hl
      refine filter_eq_nil_iff.2 fun k hk => ?_
      simpa [P] using hl k hk
    rw [filter_append, filter_append, none pt fun k hk => hq k (Or.inl hk), none qt fun k hk => hq k (Or.inr hk), nil_append, append_nil]
  have hsub2 : (pre'.filter P ++ i' :: post'.filter P) <+ code X := by
    have : (pre' ++ i' :: post').filter P = pre'.filter P ++ i' :: post'.filter P := by
      rw [filter_append, filter_cons, if_pos (by simp [P, hv'])]
    rw [← this, ← e1, hfil]
    exact filter_sublist.trans hsub
  refine used_after hdef hst hrx hX (hfine.defs _ X hX) ?_ hsub2 v hv' j' ?_ hin
  · intro y Y hY hne k hk l hl w hw hw'
    exact hfine.apart _ _ X Y hX hY (Ne.symm hne) l hl k hk w hw hw'
  · rcases mem_append.1 hj' with h1 | h1
    · exact mem_append_left _ (mem_filter.2 ⟨h1, by simp [P, hin]⟩)
    · exact mem_append_right _ h1

/-- A block does not assign variables that are on the stack with which it starts. -/
theorem starts_without (hv : Inv names R f2t O (fun _ _ => False) H O' T) (hr : Ready names R T H O' dec I main) (hF : ∀ c C, H.comp c = some C → FineComp names C)
    (he : Emittable dec I arity names O) {ch : Option String → Choices} {junk : Option String → Bool} (hA : AnalysedBy ch junk O' A) {f : String} {F : Fn}
    (h : (toProg names dec main A O').fns f = some F) (hl : Laid F) {st : Layout.DState} (hst : Layout.drive F.graph = .ok st)
    (ha : StackAssigned F st) {B : Layout.LBlock} (hB : B ∈ F.graph.blocks) {src tgt : List String} (hspec : (B.id, src, tgt) ∈ st.specs) :
    (∀ i ∈ F.instrs B.id, ∀ v ∈ i.outArgs, v ∉ src) ∧ ∀ v ∈ F.exitOuts B, v ∉ src := by
  obtain ⟨htags, hreach⟩ := Layout.layout_names (stack_tags hr hF hA h) hst hspec
  obtain ⟨comp, C, C', rfl, hC, hC', hd, rfl⟩ := prog_fn hr h
  obtain ⟨hfine, -, hargs, hdef⟩ := hF comp C hC
  -- what the blocks assign
  have outs : ∀ S ∈ (toFn names dec comp.isNone (A comp) C').graph.blocks, ∃ Y, C.body.get S.id = some Y ∧
      (∀ i ∈ (toFn names dec comp.isNone (A comp) C').instrs S.id, ∀ v ∈ i.outArgs, IsTag v ∨ ∃ j ∈ code Y, v ∈ j.outs) ∧
      (∀ v ∈ (toFn names dec comp.isNone (A comp) C').exitOuts S, ∃ j ∈ code Y, v ∈ j.outs) ∧
      S.phis = (phis Y).map fun i => { out := i.outs.headD "", args := i.ins } := by
    intro S hS
    obtain ⟨Y, D, s, body, e, hY, hD, hSe, hview, hs, hins, hsp, hph⟩ := prog_block (A := A) hr hC hd hS
    obtain ⟨pt, own, qt, hbody, hsub, -, -⟩ := view_body (hr.parts.blocks comp C hC _ Y hY) hview (tags_differ hv hF hC hY)
    refine ⟨Y, hY, ?_, ?_, hph⟩
    · rw [hins]
      intro i hi v hv'
      obtain ⟨j, hj, rfl⟩ := mem_map.1 hi
      rw [hbody] at hj
      rcases mem_tagged hj with ⟨t, rfl⟩ | hj
      · exact Or.inl ⟨t, by simpa [toIns, pushTag] using hv'⟩
      · exact Or.inr ⟨j, hsub.subset hj, hv'⟩
    · intro v hv'
      unfold Fn.exitOuts at hv'
      rw [hsp] at hv'
      cases hse : s with
      | none => rw [hse] at hv'; cases hv'
      | some j =>
        rw [hse] at hv'
        have hv'' : v ∈ j.outs := hv'
        rcases (view_split hv he hC hY (hF comp C hC) hview j hse).2 with ⟨h1, -⟩ | ⟨l, i, h1, h2, h3, -⟩
        · rw [h1] at hv''; cases hv''
        · refine ⟨i, mem_filter.2 ⟨by rw [h1]; simp, ?_⟩, h3 ▸ hv''⟩
          rw [not_phi rfl (fun e => hr.parts.names _ h2 (by rw [show i.op = _ from e]; simp))]
          rfl
  have inC : ∀ {Y : Block} {j : Instr}, j ∈ code Y → j ∈ Y.instrs := fun hj => (mem_filter.1 hj).1
  obtain ⟨X, hX, o1, o2, -⟩ := outs B hB
  have key : ∀ j ∈ code X, ∀ v ∈ j.outs, v ∉ src := by
    intro j hj v hv'
    have hneat : Neat v := hfine.neat _ X hX j (inC hj) v (mem_append_right _ hv')
    obtain ⟨hp1, hp2⟩ := neat_proper hneat (hdef.noConst _ X j hX (inC hj) v hv')
    refine own_not_on_stack_of hl ha hp1 hp2 hB hspec hreach ?_ ?_ ?_
    · rw [inputs_eq (dec := dec) (A := A) hd]
      intro hm
      rcases mem_append.1 hm with hm | hm
      · exact hdef.args _ X j hX (inC hj) v hv' (mem_reverse.1 hm)
      · have ho := Option.mem_toList.1 hm
        cases comp with
        | none => rw [hr.parts.ret.1] at ho; cases ho
        | some g =>
          rcases hr.parts.ret.2 g with h1 | h1
          · rw [h1] at ho; cases ho
          · rw [h1] at ho
            cases ho
            exact out_not_plain g (Front.Neat.plain hneat)
    · intro S hS p hp
      obtain ⟨Y, hY, -, -, hph⟩ := outs S hS
      rw [hph] at hp
      obtain ⟨i, hi, rfl⟩ := mem_map.1 hp
      obtain ⟨x, hx⟩ := ((hr.parts.blocks comp C hC _ Y hY).phiShape i hi).2
      intro e
      have hvi : v ∈ i.outs := by
        rw [hx] at e ⊢
        simpa using e.symm
      by_cases hid : S.id = B.id
      · rw [hid, hX] at hY
        cases hY
        have hnd := hfine.defs _ X hX
        rw [(hr.parts.blocks comp C hC _ X hX).phisFirst, flatMap_append, nodup_append] at hnd
        exact hnd.2.2 v (mem_flatMap.2 ⟨i, hi, hvi⟩) v (mem_flatMap.2 ⟨j, hj, hv'⟩) rfl
      · exact hfine.apart _ _ Y X hY hX hid i (mem_filter.1 hi).1 j (inC hj) v hvi hv'
    · intro S hS hid
      obtain ⟨Y, hY, q1, q2, -⟩ := outs S hS
      refine ⟨fun i hi hm => ?_, fun hm => ?_⟩
      · rcases q1 i hi v hm with ht | ⟨k, hk, hm⟩
        · exact neat_not_tag hneat ht
        · exact hfine.apart _ _ Y X hY hX hid k (inC hk) j (inC hj) v hm hv'
      · obtain ⟨k, hk, hm⟩ := q2 v hm
        exact hfine.apart _ _ Y X hY hX hid k (inC hk) j (inC hj) v hm hv'
  refine ⟨fun i hi v hv' hm => ?_, fun v hv' => ?_⟩
  · rcases o1 i hi v hv' with ht | ⟨j, hj, hvj⟩
    · exact htags v (mem_append_left _ hm) ht
    · exact key j hj v hvj hm
  · obtain ⟨j, hj, hvj⟩ := o2 v hv'
    exact key j hj v hvj

/-- What the layout generation relies on. -/
theorem fn_laid (hv : Inv names R f2t O (fun _ _ => False) H O' T) (hr : Ready names R T H O' dec I main) (hF : ∀ c C, H.comp c = some C → FineComp names C)
    (he : Emittable dec I arity names O) (hval : TagMeaning I val) {ch : Option String → Choices} {junk : Option String → Bool}
    (hA : AnalysedBy ch junk O' A) {f : String} {F : Fn} (h : (toProg names dec main A O').fns f = some F) (hone : Layout.OneJoin F.graph) :
    FnOk (toProg names dec main A O') I (destOf main H T val) f F ∧ Laid F := by
  have hok := fn_ok hv hr hF he hval h hone (by
    intro hne b
    obtain ⟨comp, C, C', rfl, hC, hC', hd, rfl⟩ := prog_fn hr h
    cases comp with
    | none => exact absurd rfl hne
    | some g => rfl) (fun B hB hret => lowered_live hr hF hA h hB hret)
  exact ⟨hok, hok.wf, hok.one, hok.start, hok.final, hok.callJoin⟩

/-- What the front end and the layout generation ensure about a component whose blocks all have layouts. -/
theorem fn_ensured (hv : Inv names R f2t O (fun _ _ => False) H O' T) (hr : Ready names R T H O' dec I main) (hF : ∀ c C, H.comp c = some C → FineComp names C)
    (he : Emittable dec I arity names O) (hval : TagMeaning I val) (hevm : EvmLike names dec I O) {ch : Option String → Choices} {junk : Option String → Bool}
    (hA : AnalysedBy ch junk O' A) {f : String} {F : Fn} (h : (toProg names dec main A O').fns f = some F) (hone : Layout.OneJoin F.graph) (horder : InOrder F.graph)
    {st : Layout.DState} (hst : Layout.drive F.graph = .ok st) (hlay : ∀ B ∈ F.graph.blocks, ∃ lay, st.specs.lookup B.id = some lay) (ha : StackAssigned F st)
    (hstart : ∃ l r, F.graph.start = l ++ "Block0" ++ r) : Placeable F.graph ∧ ∀ B ∈ F.graph.blocks, ∀ src tgt, (B.id, src, tgt) ∈ st.specs →
      Sfs.BlockOk (F.instrs B.id) (Layout.substDuplicates src) ∧ InterpOk I (F.instrs B.id) ∧ LocalOk I (F.instrs B.id) ∧
      (∀ v ∈ beforeSplit (F.split B.id) tgt, ¬ Generated v) ∧ ∀ v ∈ F.exitOuts B, v ∉ src := by
  obtain ⟨hok, hl⟩ := fn_laid hv hr hF he hval hA h hone
  have hnames := stack_names hv hr hF hA h
  refine ⟨⟨hstart, ?_, ?_, horder.oneFall, ?_, horder.condJump, horder.chain⟩, ?_⟩
  · obtain ⟨comp, C, C', rfl, hC, hC', hd, rfl⟩ := prog_fn hr h
    have hcoh := (lowered_analysable hr hF hC').sane.coherent
    intro B hB n hn
    obtain ⟨X, hX, rfl⟩ := mem_map.1 hB
    obtain ⟨Q, hQ⟩ := hcoh.targets X.id X (Inline.get_of_mem hd.ids hX) n hn
    exact ⟨_, mem_map.2 ⟨Q, get_mem hQ, rfl⟩, get_id hQ⟩
  · intro B hB
    obtain ⟨lay, h1⟩ := hlay B hB
    exact (Layout.layout_names hnames hst (mem_of_lookup h1)).2
  · obtain ⟨comp, C, C', rfl, hC, hC', hd, rfl⟩ := prog_fn hr h
    intro B hB hfall
    obtain ⟨X, D, s, body, e, hX, hD, hBe, -⟩ := prog_block (A := A) hr hC hd hB
    have hf : X.fallsTo = some B.id := by
      have : B.fallsTo = X.fallsTo := by rw [hBe]; rfl
      rw [← this]; exact hfall
    exact hr.parts.noSelf comp C hC B.id X hX (mem_succs.2 (Or.inr hf))
  · intro B hB src tgt hspec
    obtain ⟨hgen, hreach⟩ := Layout.layout_names hnames hst hspec
    obtain ⟨u2, u3⟩ := starts_without hv hr hF he hA h hl hst ha hB hspec
    obtain ⟨m1, m2, m3⟩ := block_meets hv hr hF hval hevm h hB (src := Layout.substDuplicates src) (hok.insOuts B hB) (fun i hi v hv' => (hok.properIns B hB i hi v hv').1)
      (used_later hv hr hF h hB hreach) (by
        intro v hv'
        rcases Layout.mem_substDuplicates hv' with hv' | ⟨n, rfl⟩
        · exact hgen v (mem_append_left _ hv')
        · rintro ⟨j, hj⟩
          have := congrArg (fun v => v.toList.head?) hj
          beta_reduce at this
          rw [head_a, head_s] at this
          cases this) (by
        intro i hi v hv' hm
        rcases Layout.mem_substDuplicates hm with hm | ⟨n, rfl⟩
        · exact u2 i hi v hv' hm
        · exact (hok.properIns B hB i hi _ hv').2 (Or.inl ⟨n, rfl⟩))
    refine ⟨m1, m2, m3, ?_, u3⟩
    have htgt : ∀ v ∈ tgt, ¬ Generated v := fun v hv' => hgen v (mem_append_right _ hv')
    obtain ⟨comp, C, C', rfl, hC, hC', hd, rfl⟩ := prog_fn hr h
    obtain ⟨X, D, s, body, e, hX, hD, hBe, hview, hs, hins, hsp, hph⟩ := prog_block (A := A) hr hC hd hB
    rw [hsp]
    intro v hv'
    cases hse : s with
    | none =>
      rw [hse] at hv'
      exact htgt v hv'
    | some j =>
      rw [hse] at hv'
      rcases mem_append.1 hv' with hv' | hv'
      · exact (made_fresh ((view_split hv he hC hX (hF comp C hC) hview j hse).1 v hv')).1
      · exact htgt v (mem_of_mem_drop hv')

/-- If the compiler has not failed, then the layouts and schedules of a component are right. -/
theorem fn_checked (hv : Inv names R f2t O (fun _ _ => False) H O' T) (hr : Ready names R T H O' dec I main) (hF : ∀ c C, H.comp c = some C → FineComp names C)
    (he : Emittable dec I arity names O) (hval : TagMeaning I val) (hevm : EvmLike names dec I O) {ch : Option String → Choices} {junk : Option String → Bool}
    (hA : AnalysedBy ch junk O' A) {sched : String → String → List String} (hu : Unchecked (toProg names dec main A O') I sched) {f : String} {F : Fn}
    (h : (toProg names dec main A O').fns f = some F) (hacc : acceptsFn (toProg names dec main A O') sched f = true)
    (hstart : ∃ l r, F.graph.start = l ++ "Block0" ++ r) : Placeable F.graph ∧ ∃ st, Accepted I (sched f) F st := by
  obtain ⟨hok, hl⟩ := fn_laid hv hr hF he hval hA h (hu.one f F h)
  obtain ⟨st, hst, hblocks⟩ := acceptsFn_true h hacc
  have hnd := (Layout.layouts_cover hok.wf (hu.one f F h) hst).2.1
  have hacc' : SchedulesAccepted F st (sched f) := by
    intro B hB src tgt hspec
    obtain ⟨lay, built, deps, h1, h2, h3⟩ := hblocks B hB
    rw [lookup_mem hnd hspec] at h1
    cases h1
    exact ⟨⟨built, deps, h2, h3⟩, fun pre s post v e hc => absurd hc ((hu.ids f F h B hB).1.get s (by rw [e]; simp) v)⟩
  obtain ⟨hplace, hens⟩ := fn_ensured hv hr hF he hval hevm hA h (hu.one f F h) (hu.order f F h) hst
    (fun B hB => by obtain ⟨lay, _, _, h1, -⟩ := hblocks B hB; exact ⟨lay, h1⟩) (fun hx hp _ _ _ hs hm => on_stack_assigned hl hst hacc' hx hp hs hm) hstart
  refine ⟨hplace, st, hst, ?_⟩
  intro B hB src tgt hspec
  obtain ⟨lay, built, deps, h1, h2, h3⟩ := hblocks B hB
  rw [lookup_mem hnd hspec] at h1
  cases h1
  obtain ⟨m1, m2, m3, m4, u3⟩ := hens B hB src tgt hspec
  refine ⟨⟨m1, m2, m3, m4, ⟨built, deps, h2, h3, hu.deps f F h st hst B hB src tgt hspec built deps h2⟩, (hu.ids f F h B hB).2, ?_⟩,
    hu.copies f F h st hst B hB src tgt hspec, u3⟩
  intro pre s post v e hc
  exact absurd hc ((hu.ids f F h B hB).1.get s (by rw [e]; simp) v)

end

theorem assembleFns_entry {P : Prog} {names : List String} {tags : String → Option Nat} {sched : String → String → List String} {fuel : Nat} :
    ∀ {gs : List String} {code : List Output.Asm}, assembleFns P names tags sched fuel gs = some code → ∀ g ∈ gs, ∃ c, assembleFn P names tags sched fuel g = some c
  | [], _, _ => by simp
  | g :: gs, code, h => by
    unfold assembleFns at h
    obtain ⟨c, h1, h2⟩ := Option.bind_eq_some_iff.1 h
    obtain ⟨d, h3, -⟩ := Option.map_eq_some_iff.1 h2
    intro k hk
    rcases mem_cons.1 hk with rfl | hk
    · exact ⟨c, h1⟩
    · exact assembleFns_entry h3 k hk

/-- The assertion that the first block of a component is the one with number 0 (src/solution_generation/reconstruct_bytecode.py:186). -/
theorem assemble_entry {P : Prog} {names : List String} {tags : String → Option Nat} {sched : String → String → List String} {fuel : Nat} {code : List Output.Asm}
    (h : assemble P names tags sched fuel = some code) {f : String} (hf : f = P.main ∨ f ∈ names) {F : Fn} (hF : P.fns f = some F) :
    ∃ l r, F.graph.start = l ++ "Block0" ++ r := by
  obtain ⟨c, hc⟩ : ∃ c, assembleFn P names tags sched fuel f = some c := by
    unfold assemble at h
    obtain ⟨c, h1, h2⟩ := Option.bind_eq_some_iff.1 h
    obtain ⟨d, h3, -⟩ := Option.map_eq_some_iff.1 h2
    rcases hf with rfl | hf
    · exact ⟨c, h1⟩
    · exact assembleFns_entry h3 f hf
  unfold assembleFn at hc
  rw [hF, Option.bind_some] at hc
  split at hc
  · rename_i hi
    obtain ⟨l, r, e⟩ := infixOf_iff.1 hi
    exact ⟨String.ofList l, String.ofList r, String.toList_injective (by simp [← e])⟩
  · cases hc

theorem le_sum {α : Type} {l : List α} {g : α → Nat} {a : α} (h : a ∈ l) : g a ≤ (l.map g).sum := by
  induction l with
  | nil => cases h
  | cons b l ih =>
    rw [map_cons, sum_cons]
    rcases mem_cons.1 h with rfl | h
    · omega
    · have := ih h; omega

/-- **C86.** The compiler checks its own work: if it writes an assembly for an object, then the assembly does what the object does, provided that what it does
not check is right (`Unchecked`). Nothing is assumed about the layouts and the schedules that it has found, which it checks block by block.

Partial: what the compiler does not check is assumed; variables that are stored in memory are excluded by it. -/
theorem compiled_like_source_partial {C : Type} [Nonempty C] {names order : List String} {O : Obj} {dec : String → String × Option (List String)}
    {I : Interp Nat (Loc → C)} {arity : String → Nat} {val : Nat → Nat} {main : String} (K : Compilable names O) (ho : CalleesFirst O order)
    (hE : Ending names O) (hI : OpsOk names dec I O) (hm : main ∉ names ++ Lower.haltOps) (he : Emittable dec I arity names O)
    (hval : TagMeaning I val) (hnum : ∀ n, I.num n = n) (hevm : EvmLike names dec I O) {ch : Option String → Choices} {junk : Option String → Bool}
    {sched : String → String → List String} {code : List Output.Asm} (hc : compileObject names order dec main ch junk sched O = some code) :
    ∃ names' O' T, frontEnd names order O = some (names', O', T) ∧
      (Unchecked (programOf names' dec main ch junk O') I sched → AssemblyLike I dec arity code O) := by
  obtain ⟨names', O', T, h1, -, h2, h3⟩ := whole_compiler_partial K ho hE hI hm he hval hnum
  obtain ⟨-, hlive⟩ := front_end_analyses K ho hE hI hm h1
  refine ⟨names', O', T, h1, fun hu => ?_⟩
  unfold compileObject at hc
  rw [h1, Option.bind_some] at hc
  split at hc
  case isFalse => cases hc
  case isTrue hcomp =>
  dsimp only at hc
  split at hc
  case isFalse => cases hc
  case isTrue hacc =>
  rw [all_eq_true] at hcomp hacc
  have hA : AnalysedBy ch junk O' fun c => (computed ch junk O' c).getD noAnalysis := by
    intro comp C' hC'
    have hmem : comp ∈ (none :: names'.map some : List (Option String)) := by
      cases comp with
      | none => exact mem_cons_self
      | some g => exact mem_cons_of_mem _ (mem_map.2 ⟨g, (h2 g).2 ⟨C', hC'⟩, rfl⟩)
    obtain ⟨a, ha'⟩ := Option.isSome_iff_exists.1 (hcomp comp hmem)
    have ha : computed ch junk O' comp = some a := ha'
    unfold computed at ha'
    rw [hC', Option.bind_some] at ha'
    rw [ha']
    beta_reduce
    rw [ha]
    rfl
  have hfns : ∀ f F, (programOf names' dec main ch junk O').fns f = some F → f ∈ main :: names' := by
    intro f F hF
    by_cases hf : f = main
    · exact mem_cons.2 (Or.inl hf)
    · have hF' : (if f = main then _ else (O'.fns f).map (toFn names' dec false _)) = some F := hF
      rw [if_neg hf] at hF'
      obtain ⟨C', hC', -⟩ := Option.map_eq_some_iff.1 hF'
      exact mem_cons_of_mem _ ((h2 f).2 ⟨C', hC'⟩)
  have hfuel : ∀ f F, (programOf names' dec main ch junk O').fns f = some F →
      F.graph.blocks.length ≤ allBlocks (programOf names' dec main ch junk O') (main :: names') := by
    intro f F hF
    have := le_sum (g := fun f => (((programOf names' dec main ch junk O').fns f).map fun F => F.graph.blocks.length).getD 0) (hfns f F hF)
    rwa [hF] at this
  have key : ∀ f F, (programOf names' dec main ch junk O').fns f = some F → Placeable F.graph ∧ ∃ st, Accepted I (sched f) F st := by
    intro f F hF
    obtain ⟨O1, p1, p2, p3, p4, p5, p6⟩ := preprocessed_lowerable K ho
    obtain ⟨O2, T2, f2t, H, g1, hv⟩ := lower_deco p4
    have hm' : main ∉ (names.filter fun f => (O1.fns f).isSome) ++ Lower.haltOps := by
      intro h2
      rcases mem_append.1 h2 with h3 | h3
      · exact hm (mem_append.2 (Or.inl (mem_filter.1 h3).1))
      · exact hm (mem_append.2 (Or.inr h3))
    have hr := ready_of_inv hv (ops_after p5 hI) hm'
    have g : frontEnd names order O = some (names.filter fun f => (O1.fns f).isSome, O2, T2) := by unfold frontEnd; rw [p1, Option.bind_some, g1]; rfl
    rw [h1] at g
    cases g
    exact fn_checked hv hr (hv.fine (p6 hE)) (emittable_after p5 hI he) hval (evmLike_after p5 hevm) hA hu hF (hacc f (hfns f F hF))
      (assemble_entry hc (mem_cons.1 (hfns f F hF)) hF)
  obtain ⟨code', hcode, hlike⟩ := h3 _ sched _ ⟨hu.one, hlive ch junk _ hA, fun f F hF => (key f F hF).1, fun f F hF => (key f F hF).2,
    fun f F hF B hB => (hu.ids f F hF B hB).1, hu.terminal⟩ hfuel
  have : assemble (programOf names' dec main ch junk O') names' (tagOf T) sched (allBlocks (programOf names' dec main ch junk O') (main :: names')) = some code' := hcode
  rw [hc] at this
  cases this
  exact hlike

/-- **C86, documents.** As `compiled_like_source_partial`, from the document that the compiler reads. -/
theorem compiled_like_document_partial {C : Type} [Nonempty C] {J : JObj} {order : List String} {dec : String → String × Option (List String)} {I : Interp Nat (Loc → C)}
    {arity : String → Nat} {val : Nat → Nat} {main : String} (hJ : DocOk J) (hu : Underscores J) :
    ∃ O, parseObject J = some O ∧ (Compilable (J.functions.map (·.1)) O → CalleesFirst O order → Ending (J.functions.map (·.1)) O →
      OpsOk (J.functions.map (·.1)) dec I O → main ∉ J.functions.map (·.1) ++ Lower.haltOps → Emittable dec I arity (J.functions.map (·.1)) O →
      TagMeaning I val → (∀ n, I.num n = n) → EvmLike (J.functions.map (·.1)) dec I O →
      ∀ ch junk sched code, compileObject (J.functions.map (·.1)) order dec main ch junk sched O = some code →
        ∃ names' O' T, frontEnd (J.functions.map (·.1)) order O = some (names', O', T) ∧
          (Unchecked (programOf names' dec main ch junk O') I sched → AssemblyOf I dec arity code J)) := by
  obtain ⟨O, hO, hs⟩ := parsed_runs_partial hJ hu
  refine ⟨O, hO, ?_⟩
  intro K ho hE hI hm he hval hnum hevm ch junk sched code hc
  obtain ⟨names', O', T, h1, h2⟩ := compiled_like_source_partial K ho hE hI hm he hval hnum hevm hc
  refine ⟨names', O', T, h1, ?_⟩
  intro hun w below hw
  have hsame := hs _ _ (meaning I dec) (zeros I) (w, none)
  obtain ⟨h5, h6⟩ := h2 hun w below fun h => hw (hsame.2.2 h)
  refine ⟨fun h => (h5 h).trans (exists_congr fun s => and_congr_left' (hsame.1 s).symm), fun hn => h6 ?_⟩
  rintro ⟨s, hs'⟩
  exact hn ⟨s, (hsame.1 s).2 hs'⟩

end Grey.Whole
