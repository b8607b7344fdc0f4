/-
C65: the parsed object does what the document says.
-/
import Verif.Parser.Blocks
import Verif.Cfg.Lemmas
namespace Grey.Parser
open List Grey.Cfg Grey.Inline

/-! ### Instructions and blocks -/

/-- The order of results is kept. -/
theorem conv_outs {i : JInstr} (h : 2 ≤ i.outs.length → '_' ∈ i.op.toList) : (conv i).outs = i.outs := by
  unfold conv mkInstr
  dsimp only
  split
  · exact reverse_reverse _
  · rename_i h1
    match ho : i.outs with
    | [] => rfl
    | [_] => rfl
    | _ :: _ :: _ => exact absurd (h (by simp [ho])) h1

theorem conv_ins {i : JInstr} (h : i.op ≠ "PhiFunction") : (conv i).ins = i.ins.reverse := by
  unfold conv mkInstr
  exact if_pos h

theorem retCode_phi (b : JBlock) : ∀ i ∈ retCode b, isPhi i = false := by
  intro i hi
  unfold retCode at hi
  split at hi
  · rw [mem_singleton] at hi
    subst hi
    show ("functionReturn" == "PhiFunction") = false
    decide +kernel
  · cases hi

theorem phis_parsed (obj : String) (blocks : List JBlock) (b : JBlock) : phis (parsedBlock obj blocks b) = (jphis b).map conv := by
  show (b.instrs.map conv ++ retCode b).filter isPhi = _
  have h2 : (retCode b).filter isPhi = [] := by
    rw [filter_eq_nil_iff]
    intro i hi
    rw [retCode_phi b i hi]
    exact Bool.false_ne_true
  rw [filter_append, h2, append_nil, filter_map]
  rfl

theorem code_parsed (obj : String) (blocks : List JBlock) (b : JBlock) :
    code (parsedBlock obj blocks b) = (jcode b).map conv ++ retCode b := by
  show (b.instrs.map conv ++ retCode b).filter (fun i => !isPhi i) = _
  have h2 : (retCode b).filter (fun i => !isPhi i) = retCode b := by
    rw [filter_eq_self]
    intro i hi
    rw [retCode_phi b i hi]
    rfl
  rw [filter_append, h2, filter_map]
  rfl

theorem idxOf_name (obj p : String) (l : List String) : (l.map (blockName obj)).idxOf? (blockName obj p) = l.idxOf? p := by
  induction l with
  | nil => rfl
  | cons a l ih =>
    rw [map_cons, idxOf?_cons, idxOf?_cons, ih]
    have : (blockName obj a == blockName obj p) = (a == p) := by
      rw [Bool.eq_iff_iff, beq_iff_eq, beq_iff_eq]
      exact ⟨blockName_inj, fun h => h ▸ rfl⟩
    rw [this]

theorem enter_parsed {V : Type} {obj : String} {blocks : List JBlock} {b : JBlock} (hu : ∀ i ∈ b.instrs, 2 ≤ i.outs.length → '_' ∈ i.op.toList)
    (prev : Option String) (env : String → V) :
    enter (parsedBlock obj blocks b) (prev.map (blockName obj)) env = jenter b prev env := by
  unfold enter enterWith jenter
  rw [show ((parsedBlock obj blocks b).instrs.filter isPhi) = (jphis b).map conv from phis_parsed obj blocks b]
  by_cases hp : jphis b = []
  · rw [if_pos hp, if_pos (by rw [hp]; rfl)]
  · rw [if_neg hp, if_neg fun h => hp (map_eq_nil_iff.1 h)]
    cases prev with
    | none => rfl
    | some p =>
      rw [Option.map_some, Option.bind_some, Option.bind_some,
        show (parsedBlock obj blocks b).entries = b.entries.map (blockName obj) from rfl, idxOf_name]
      congr 1
      funext k
      unfold execPhis
      congr 1
      rw [filterMap_map]
      refine filterMap_congr fun i hi => ?_
      have h1 : i.op = "PhiFunction" := beq_iff_eq.1 (mem_filter.1 hi).2
      have h2 := conv_outs (hu i (mem_filter.1 hi).1)
      have h3 : (conv i).ins = i.ins := by
        unfold conv mkInstr
        rw [h1]
        rfl
      simp only [Function.comp_apply, h2, h3]
      rfl

/-! ### Lists of blocks -/

/-- The name under which the blocks of a component are known. -/
def compName (J : JObj) : Option String → String
  | none => J.name
  | some f => f

/-- The parsed list of blocks. -/
def parsedList (obj : String) (blocks : List JBlock) : BlockList :=
  { blocks := blocks.map (parsedBlock obj blocks), start := blocks.head?.map fun b => blockName obj b.id,
    terminals := termsOf obj blocks, returns := retsOf obj blocks }

theorem get_parsed (obj : String) (blocks : List JBlock) (x : String) :
    (parsedList obj blocks).get (blockName obj x) = (blocks.find? fun b => b.id == x).map (parsedBlock obj blocks) := by
  unfold BlockList.get parsedList
  rw [find?_map]
  congr 2
  funext b
  simp only [Function.comp_apply]
  rw [Bool.eq_iff_iff, beq_iff_eq, beq_iff_eq]
  exact ⟨fun h => blockName_inj h, fun h => by rw [← h]; rfl⟩

/-- The parsed object. -/
def parsedObj (J : JObj) : Obj :=
  ⟨parsedList J.name J.blocks, fun f => (J.functions.lookup f).map fun F => ⟨F.arguments.reverse, parsedList f F.blocks⟩⟩

theorem lookup_mem {β : Type} {d : List (String × β)} {k : String} {v : β} (h : d.lookup k = some v) : (k, v) ∈ d := by
  induction d with
  | nil => cases h
  | cons e d ih =>
    obtain ⟨a, l⟩ := e
    by_cases hk : k = a
    · subst hk
      rw [lookup_hit] at h
      cases h
      exact mem_cons_self
    · rw [lookup_miss _ _ hk] at h
      exact mem_cons_of_mem _ (ih h)

/-- The parser in closed form. -/
theorem parseObject_of {J : JObj} (hm : BlocksOk J.blocks) (hf : ∀ f F, (f, F) ∈ J.functions → BlocksOk F.blocks) :
    parseObject J = some (parsedObj J) := by
  unfold parseObject
  rw [parseBlockList_eq hm, Option.bind_some]
  have key : ∀ l : List (String × JFun), (∀ f F, (f, F) ∈ l → BlocksOk F.blocks) →
      ∃ fs, (l.mapM fun e => (parseFunction e.1 e.2).map fun C => (e.1, C)) = some fs ∧
        ∀ f, fs.lookup f = (l.lookup f).map fun F => (⟨F.arguments.reverse, parsedList f F.blocks⟩ : Component) := by
    intro l
    induction l with
    | nil => exact fun _ => ⟨[], rfl, fun _ => rfl⟩
    | cons e l ih =>
      obtain ⟨g, F⟩ := e
      intro hl
      obtain ⟨fs, h1, h2⟩ := ih fun f F hf => hl f F (mem_cons_of_mem _ hf)
      refine ⟨(g, ⟨F.arguments.reverse, parsedList g F.blocks⟩) :: fs, ?_, ?_⟩
      · rw [mapM_cons, h1]
        have : parseFunction g F = some ⟨F.arguments.reverse, parsedList g F.blocks⟩ := by
          unfold parseFunction
          rw [parseBlockList_eq (hl g F mem_cons_self)]
          rfl
        rw [this]
        rfl
      · intro f
        by_cases hf : f = g
        · subst hf
          rw [lookup_hit, lookup_hit]
          rfl
        · rw [lookup_miss _ _ hf, lookup_miss _ _ hf, h2]
  obtain ⟨fs, h1, h2⟩ := key J.functions hf
  rw [h1]
  refine congrArg some ?_
  unfold parsedObj
  show (⟨parsedList J.name J.blocks, fun f => fs.lookup f⟩ : Obj) = _
  congr 1
  funext f
  exact h2 f

theorem parseObject_eq {J : JObj} (h : DocOk J) : parseObject J = some (parsedObj J) := parseObject_of h.main h.fns

theorem comp_parsed (J : JObj) (c : Option String) {blocks : List JBlock} (h : J.blocksOf c = some blocks) :
    ∃ args, (parsedObj J).comp c = some ⟨args, parsedList (compName J c) blocks⟩ := by
  cases c with
  | none =>
    cases h
    exact ⟨[], rfl⟩
  | some f =>
    change (J.functions.lookup f).map (·.blocks) = _ at h
    cases hF : J.functions.lookup f with
    | none => rw [hF] at h; cases h
    | some F =>
      rw [hF] at h
      cases h
      refine ⟨F.arguments.reverse, ?_⟩
      show (J.functions.lookup f).map _ = _
      rw [hF]
      rfl

/-! ### Corresponding configurations -/

section
variable {V W : Type}

/-- The instruction for the exit of the block in which an activation is. -/
def exitCode (J : JObj) (c : Option String) (x : String) : List Instr :=
  match (J.blocksOf c).bind fun blocks => blocks.find? fun b => b.id == x with
  | some b => retCode b
  | none => []

def toFrame (J : JObj) (fr : JFrame V) : Frame V :=
  ⟨fr.comp, blockName (compName J fr.comp) fr.block, fr.rest.map conv ++ exitCode J fr.comp fr.block, fr.env⟩

def toConf (J : JObj) (c : JConf V W) : Conf V W :=
  ⟨toFrame J c.cur, c.stack.map fun e => (toFrame J e.1, e.2), c.world⟩

/-- An activation is in a block, before some of its instructions. -/
def FrameOk (J : JObj) (fr : JFrame V) : Prop :=
  ∃ blocks b, J.blocksOf fr.comp = some blocks ∧ (blocks.find? fun b => b.id == fr.block) = some b ∧ fr.rest <:+ jcode b

def ConfOk (J : JObj) (c : JConf V W) : Prop := FrameOk J c.cur ∧ ∀ e ∈ c.stack, FrameOk J e.1

theorem exitCode_eq {J : JObj} {c : Option String} {x : String} {blocks : List JBlock} {b : JBlock} (h1 : J.blocksOf c = some blocks)
    (h2 : (blocks.find? fun b => b.id == x) = some b) : exitCode J c x = retCode b := by
  unfold exitCode
  rw [h1, Option.bind_some, h2]

theorem goto_sim {J : JObj} {comp : Option String} {blocks : List JBlock} (hb : J.blocksOf comp = some blocks) (hu : Underscores J)
    (prev : Option String) (t : String) (env : String → V) (stack : List (JFrame V × List String)) (w : W) :
    goto (parsedList (compName J comp) blocks) comp (prev.map (blockName (compName J comp))) (blockName (compName J comp) t) env
      (stack.map fun e => (toFrame J e.1, e.2)) w = (jgoto blocks comp prev t env stack w).map (toConf J) := by
  unfold goto jgoto
  rw [get_parsed]
  cases hf : blocks.find? fun b => b.id == t with
  | none => rfl
  | some b =>
    simp only [Option.map_some]
    rw [enter_parsed (hu comp blocks hb b (mem_of_find?_eq_some hf))]
    cases jenter b prev env with
    | none => rfl
    | some e =>
      simp only [Out.map, toConf, toFrame]
      rw [code_parsed, exitCode_eq hb hf]

theorem goto_ok {J : JObj} {comp : Option String} {blocks : List JBlock} (hb : J.blocksOf comp = some blocks) {prev : Option String} {t : String}
    {env : String → V} {stack : List (JFrame V × List String)} {w : W} (hs : ∀ e ∈ stack, FrameOk J e.1) {d : JConf V W}
    (h : jgoto blocks comp prev t env stack w = .goto d) : ConfOk J d := by
  unfold jgoto at h
  split at h
  · cases h
  · rename_i b hf
    split at h
    · cases h
    · cases h
      exact ⟨⟨blocks, b, hb, hf, suffix_rfl⟩, hs⟩

theorem step_ok {J : JObj} {sem : Sem V W} {base : String → V} {c d : JConf V W} (hc : ConfOk J c) (h : jstep sem base J c = .goto d) :
    ConfOk J d := by
  obtain ⟨⟨blocks, b, h1, h2, h3⟩, hs⟩ := hc
  unfold jstep at h
  split at h
  · rename_i i is hr
    have hfr : ∀ e : String → V, FrameOk J { c.cur with rest := is, env := e } := fun e =>
      ⟨blocks, b, h1, h2, (suffix_cons i is).trans (hr ▸ h3)⟩
    unfold jinstr at h
    dsimp only at h
    split at h
    · rename_i F hF
      split at h
      · refine goto_ok (show J.blocksOf (some i.op) = some F.blocks by show (J.functions.lookup i.op).map (·.blocks) = _; rw [hF]; rfl) ?_ h
        intro e he
        rcases mem_cons.1 he with rfl | he
        · exact hfr c.cur.env
        · exact hs e he
      · cases h
    · split at h
      · split at h
        · cases h
          exact ⟨hfr _, hs⟩
        · cases h
      · cases h
  · rename_i hr
    rw [h1] at h
    dsimp only at h
    rw [h2] at h
    dsimp only at h
    unfold jexit at h
    dsimp only at h
    split at h
    · split at h
      · exact goto_ok h1 hs h
      · cases h
    · split at h
      · split at h
        · split at h
          · exact goto_ok h1 hs h
          · exact goto_ok h1 hs h
        · cases h
      · split at h
        · split at h
          · rename_i vs fr outs st hv hst
            split at h
            · cases h
              have h4 := hs (fr, outs) (by rw [hst]; exact mem_cons_self)
              exact ⟨h4, fun e he => hs e (by rw [hst]; exact mem_cons_of_mem _ he)⟩
            · cases h
          · cases h
        · split at h
          · cases h
          · cases h

theorem blocksOf_mem {J : JObj} (h : DocOk J) {c : Option String} {blocks : List JBlock} (hb : J.blocksOf c = some blocks) : BlocksOk blocks := by
  cases c with
  | none =>
    cases hb
    exact h.main
  | some f =>
    change (J.functions.lookup f).map (·.blocks) = _ at hb
    cases hF : J.functions.lookup f with
    | none => rw [hF] at hb; cases hb
    | some F =>
      rw [hF] at hb
      cases hb
      exact h.fns f F (lookup_mem hF)

theorem step_sim {J : JObj} (h : DocOk J) (hu : Underscores J) (sem : Sem V W) (base : String → V) {c : JConf V W} (hc : ConfOk J c) :
    step sem base (parsedObj J) (toConf J c) = (jstep sem base J c).map (toConf J) := by
  obtain ⟨⟨blocks, b, h1, h2, h3⟩, hs⟩ := hc
  obtain ⟨args, hcomp⟩ := comp_parsed J c.cur.comp h1
  have hb := (blocksOf_mem h h1).block b (mem_of_find?_eq_some h2)
  unfold step jstep
  rw [show (toConf J c).cur.comp = c.cur.comp from rfl, hcomp]
  simp only []
  cases hr : c.cur.rest with
  | cons i is =>
    have hi : i ∈ jcode b := h3.subset (hr ▸ mem_cons_self)
    obtain ⟨hi1, hi2⟩ := mem_filter.1 hi
    have hphi : i.op ≠ "PhiFunction" := by simpa using hi2
    have hret : i.op ≠ "functionReturn" := hb.ops i hi1
    have houts := conv_outs (hu _ _ h1 b (mem_of_find?_eq_some h2) i hi1)
    have hins := conv_ins hphi
    have hrest : (toConf J c).cur.rest = conv i :: (is.map conv ++ exitCode J c.cur.comp c.cur.block) := by
      show c.cur.rest.map conv ++ exitCode J c.cur.comp c.cur.block = _
      rw [hr]
      rfl
    rw [hrest]
    simp only []
    unfold jinstr
    have hop : (conv i).op = i.op := rfl
    have henv : (toConf J c).cur.env = c.cur.env := rfl
    rw [hop, show (parsedObj J).fns i.op = (J.functions.lookup i.op).map fun F => ⟨F.arguments.reverse, parsedList i.op F.blocks⟩ from rfl]
    cases hF : J.functions.lookup i.op with
    | some F =>
      simp only [Option.map_some]
      unfold callFn
      simp only [hins, houts, henv, hop, length_reverse, reverse_reverse, length_map]
      split
      · have hE := h.entry i.op F (lookup_mem hF)
        have hst : (parsedList i.op F.blocks).start = some (blockName i.op F.entry) := by
          show F.blocks.head?.map _ = _
          cases hh : F.blocks.head? with
          | none => rw [hh] at hE; cases hE
          | some b0 =>
            rw [hh, Option.map_some, Option.some.injEq] at hE
            rw [Option.map_some, hE]
        rw [hst]
        exact goto_sim (J := J) (comp := some i.op) (blocks := F.blocks) (by show (J.functions.lookup i.op).map (·.blocks) = _; rw [hF]; rfl) hu none F.entry _
          (({ c.cur with rest := is }, i.outs) :: c.stack) c.world
      · rfl
    | none =>
      simp only [Option.map_none]
      rw [if_neg hret]
      unfold operate
      simp only [hins, houts, henv, hop]
      split
      · split
        · rename_i h5
          rw [if_pos (show (sem.op i.op (i.ins.reverse.map c.cur.env) c.world).2.2 = true by assumption)]
          rw [if_pos (by exact h5)]
          rfl
        · rename_i h5
          rw [if_pos (show (sem.op i.op (i.ins.reverse.map c.cur.env) c.world).2.2 = true by assumption)]
          rw [if_neg (by exact h5)]
          rfl
      · rename_i h5
        rw [if_neg (by exact h5)]
        rfl
  | nil =>
    have hrest : (toConf J c).cur.rest = retCode b := by
      show c.cur.rest.map conv ++ exitCode J c.cur.comp c.cur.block = _
      rw [hr, exitCode_eq h1 h2]
      rfl
    rw [hrest, h1]
    simp only []
    rw [h2]
    simp only []
    have hg := fun t => goto_sim h1 hu (some c.cur.block) t c.cur.env c.stack c.world
    have hget : (parsedList (compName J c.cur.comp) blocks).get (toConf J c).cur.block =
        some (parsedBlock (compName J c.cur.comp) blocks b) := by
      show (parsedList _ _).get (blockName _ c.cur.block) = _
      rw [get_parsed, h2]
      rfl
    obtain ⟨e1, e2, e3, e4, -, -, -⟩ := hb
    unfold jexit
    simp only [exitTypes, mem_cons, not_mem_nil, or_false] at e1
    rcases e1 with e | e | e | e | e
    · have hrc : retCode b = [] := by unfold retCode; rw [e]; rfl
      rw [hrc]
      simp only []
      rw [hget]
      simp only []
      unfold leaveBlock
      cases ht : b.exit.targets with
      | nil => exact absurd ht (e2 e)
      | cons t l =>
        have hj : (parsedBlock (compName J c.cur.comp) blocks b).jumpTo = some (blockName (compName J c.cur.comp) t) := by
          simp [parsedBlock, convBlock, e, ht]
        have hf : (parsedBlock (compName J c.cur.comp) blocks b).fallsTo = none := by simp [parsedBlock, convBlock, e]
        rw [hj, hf]
        simp only [e, if_true]
        exact hg t
    · have hrc : retCode b = [] := by unfold retCode; rw [e]; rfl
      rw [hrc]
      simp only []
      rw [hget]
      simp only []
      unfold leaveBlock
      obtain ⟨e3, e3'⟩ := e3 e
      obtain ⟨x, hx⟩ := Option.ne_none_iff_exists'.1 e3'
      match ht : b.exit.targets with
      | [] => simp [ht] at e3
      | [_] => simp [ht] at e3
      | t0 :: t1 :: l =>
        have hj : (parsedBlock (compName J c.cur.comp) blocks b).jumpTo = some (blockName (compName J c.cur.comp) t1) := by
          simp [parsedBlock, convBlock, e, ht]
        have hf : (parsedBlock (compName J c.cur.comp) blocks b).fallsTo = some (blockName (compName J c.cur.comp) t0) := by
          simp [parsedBlock, convBlock, e, ht]
        have hco : (parsedBlock (compName J c.cur.comp) blocks b).cond = some x := by simp [parsedBlock, convBlock, e, hx]
        rw [hj, hf, hco, hx]
        simp only [e]
        rw [if_neg (show ¬ ("ConditionalJump" = "Jump") by decide +kernel), if_pos trivial]
        show goto _ _ _ (if sem.truth (c.cur.env x) = true then _ else _) _ _ _ = _
        split
        · exact hg t1
        · exact hg t0
    · obtain ⟨vs, hv⟩ := Option.ne_none_iff_exists'.1 (e4 e)
      have hrc : retCode b = [⟨"functionReturn", vs, []⟩] := by unfold retCode; rw [e, if_pos rfl, hv]; rfl
      rw [hrc, hv]
      simp only []
      have hfn : (parsedObj J).fns "functionReturn" = none := by
        show (J.functions.lookup "functionReturn").map _ = none
        cases hF : J.functions.lookup "functionReturn" with
        | none => rfl
        | some F => exact absurd rfl (h.names _ F (lookup_mem hF))
      rw [hfn]
      simp only [if_true]
      simp only [e]
      rw [if_neg (show ¬ ("FunctionReturn" = "Jump") by decide +kernel), if_neg (show ¬ ("FunctionReturn" = "ConditionalJump") by decide +kernel),
        if_pos trivial]
      unfold returnFn
      cases hst : c.stack with
      | nil =>
        have : (toConf J c).stack = [] := by show c.stack.map _ = _; rw [hst]; rfl
        rw [this]
        rfl
      | cons e st =>
        obtain ⟨fr, outs⟩ := e
        have : (toConf J c).stack = (toFrame J fr, outs) :: st.map fun e => (toFrame J e.1, e.2) := by show c.stack.map _ = _; rw [hst]; rfl
        rw [this]
        simp only []
        split
        · rfl
        · rfl
    all_goals
      have hrc : retCode b = [] := by unfold retCode; rw [e]; rfl
      rw [hrc]
      simp only []
      rw [hget]
      simp only []
      unfold leaveBlock
      have hj : (parsedBlock (compName J c.cur.comp) blocks b).jumpTo = none := by simp [parsedBlock, convBlock, e]
      have hf : (parsedBlock (compName J c.cur.comp) blocks b).fallsTo = none := by simp [parsedBlock, convBlock, e]
      rw [hj, hf]
      simp only [e]
      rw [if_neg (by decide +kernel), if_neg (by decide +kernel), if_neg (by decide +kernel), if_pos (by decide +kernel)]
      rfl

end

/-- **C65 (meaning).** Documents as solc writes them are parsed, and the object does what the document says: it ends in the same worlds and gets stuck
alike, whatever the operations mean and in whatever world it is started. The results of an instruction are assigned in the right order only if there
are less than two of them or there is an underscore in the name of the operation (`Underscores`; see `results_swapped`). -/
theorem parsed_runs_partial {J : JObj} (h : DocOk J) (hu : Underscores J) :
    ∃ O, parseObject J = some O ∧
      ∀ (V W : Type) (sem : Sem V W) (base : String → V) (w : W), SameBehaviour (jrun sem base J w) none (run sem base O w) none := by
  refine ⟨parsedObj J, parseObject_eq h, ?_⟩
  intro V W sem base w
  refine (simulation (f := jrun sem base J w) (f' := run sem base (parsedObj J) w) (fun c => c.map (toConf J))
    (fun c => ∀ d, c = some d → ConfOk J d) ?_ ?_ (c := none) (by intro d hd; cases hd)).1
  · intro c d hc hd e he
    subst he
    cases c with
    | none =>
      change (match J.blocks with | [] => Out.stuck | b :: _ => (jgoto J.blocks none none b.id base [] w).map some) = _ at hd
      split at hd
      · cases hd
      · rename_i b l hb
        cases hj : jgoto J.blocks none none b.id base ([] : List (JFrame V × List String)) w with
        | halt s => rw [hj] at hd; cases hd
        | stuck => rw [hj] at hd; cases hd
        | goto d' =>
          rw [hj] at hd
          cases hd
          exact goto_ok rfl (by simp) hj
    | some c =>
      change (jstep sem base J c).map some = _ at hd
      cases hj : jstep sem base J c with
      | halt s => rw [hj] at hd; cases hd
      | stuck => rw [hj] at hd; cases hd
      | goto d' =>
        rw [hj] at hd
        cases hd
        exact step_ok (hc c rfl) hj
  · intro c hc
    left
    cases c with
    | none =>
      show run sem base (parsedObj J) w none = _
      unfold run jrun start
      rw [show (parsedObj J).main.start = J.blocks.head?.map fun b => blockName J.name b.id from rfl]
      cases hb : J.blocks with
      | nil => rfl
      | cons b l =>
        simp only [head?_cons, Option.map_some]
        have := goto_sim (V := V) (W := W) (J := J) (comp := none) (blocks := J.blocks) rfl hu none b.id base [] w
        rw [show (parsedObj J).main = parsedList J.name J.blocks from rfl]
        rw [show goto (parsedList J.name J.blocks) none none (blockName J.name b.id) base [] w = _ from this, hb]
        cases jgoto (b :: l) none none b.id base ([] : List (JFrame V × List String)) w <;> rfl
    | some c =>
      show run sem base (parsedObj J) w (some (toConf J c)) = _
      unfold run jrun
      simp only []
      rw [step_sim h hu sem base (hc c rfl)]
      cases jstep sem base J c <;> rfl

end Grey.Parser
