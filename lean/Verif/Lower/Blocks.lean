/-
One block of the program is one or more steps of the object.
-/
import Verif.Lower.Sim
namespace Grey.Lower
open List Grey.Cfg Grey.Inline Grey.Sfs

section
variable {V σ : Type} {names : List String} {R : Option String → Option String} {T : TagDict} {H O' : Obj}
  {dec : String → String × Option (List String)} {I : Interp V σ} {main : String} {A : Option String → Analysis}

open Classical in
/-- A step of the program, in terms of the block of the object. -/
theorem prog_step (hr : Ready names R T H O' dec I main) {comp : Option String} {C C' : Component} (hC : H.comp comp = some C)
    (hC' : O'.comp comp = some C') {b : String} {B' : Block} (hB' : C'.body.get b = some B') {is : List Instr}
    (his : (if (splitInstr names B').isSome then (code B').dropLast else code B') = is) {x : Program.Exit}
    (hx : (toProg names dec main A O').exit (toFn names dec comp.isNone (A comp) C') (toLBlock names B') = x) {as : List String}
    (has : (toFn names dec comp.isNone (A comp) C').exitArgs (toLBlock names B') = as) {op : String}
    (hop : (toFn names dec comp.isNone (A comp) C').exitOp (toLBlock names B') = op) (e' : String → V) (fs : List (Program.Frame V)) (w : σ)
    {jt ft : Option String} (hjt : B'.jumpTo = jt) (hft : B'.fallsTo = ft) {r : (String → V) × σ} (hrun : blockRun I (is.map (toIns dec)) e' w = r) :
    Program.step (toProg names dec main A O') I ⟨nameOf main comp, b, e', fs, w⟩ =
      match (generalizing := false) x with
      | .fall => (Program.goto I (nameOf main comp) (toFn names dec comp.isNone (A comp) C') (toLBlock names B') ft r.1 fs r.2).map .inl
      | .jump => (Program.goto I (nameOf main comp) (toFn names dec comp.isNone (A comp) C') (toLBlock names B') jt r.1 fs r.2).map .inl
      | .branch => (Program.goto I (nameOf main comp) (toFn names dec comp.isNone (A comp) C') (toLBlock names B')
          (if (as.map (I.read r.1))[1]? = some (I.num 0) then ft else jt) r.1 fs r.2).map .inl
      | .call g => ((toProg names dec main A O').fns g).bind fun G =>
        if ((as.map (I.read r.1)).drop 1).length = G.graph.inputs.length then
          some (.inl ⟨g, G.graph.start, SymExec.assign (fun _ => I.num 0) G.graph.inputs ((as.map (I.read r.1)).drop 1), ⟨nameOf main comp, b, r.1⟩ :: fs, r.2⟩)
        else none
      | .ret => match (generalizing := false) fs with
        | [] => none
        | fr :: frames => ((toProg names dec main A O').fns fr.fn).bind fun F' => (F'.graph.block fr.block).bind fun B' =>
          if ((as.map (I.read r.1)).drop 1).length = (F'.exitOuts B').length then
            (Program.goto I fr.fn F' B' B'.fallsTo (SymExec.assign fr.env (F'.exitOuts B') ((as.map (I.read r.1)).drop 1)) frames r.2).map .inl
          else none
      | .halt => some (.inr ⟨op, as.map (I.read r.1), r.2⟩) := by
  subst hjt hft
  unfold Program.step
  simp only
  rw [prog_comp hr hC hC', Option.bind_some, graph_block, hB', Option.map_some, Option.bind_some, lblock_id hB', fn_instrs hB', his, hrun, hx, has, hop]
  cases x <;> rfl

/-- How the block ends and with which arguments, from its last instruction. -/
theorem exit_split {m : Bool} {a : Analysis} {C' : Component} {b : String} {B' : Block} (hB' : C'.body.get b = some B') {j : Instr}
    (hs : splitInstr names B' = some j) (hd : dec j.op = (j.op, none)) :
    (toProg names dec main A O').exit (toFn names dec m a C') (toLBlock names B') =
      (if j.op = "JUMP" then .jump else if j.op = "JUMPI" then .branch else if j.op = "functionReturn" then .ret
       else if ((toProg names dec main A O').fns j.op).isSome then .call j.op else .halt) ∧
    (toFn names dec m a C').exitArgs (toLBlock names B') = j.ins ∧ (toFn names dec m a C').exitOuts (toLBlock names B') = j.outs ∧
    (toFn names dec m a C').exitOp (toLBlock names B') = j.op.map Char.toUpper := by
  have h : (toFn names dec m a C').split (toLBlock names B').id = some (toIns dec j) := by rw [lblock_id hB', fn_split hB', hs]; rfl
  have ho : (toIns dec j).op = j.op := by show (dec j.op).1 = _; rw [hd]
  refine ⟨?_, ?_, ?_, ?_⟩
  · unfold Program.Prog.exit
    rw [h]
    simp only [ho]
  · unfold Program.Fn.exitArgs; rw [h]; rfl
  · unfold Program.Fn.exitOuts; rw [h]; rfl
  · unfold Program.Fn.exitOp; rw [h]
    show (toIns dec j).op.map Char.toUpper = _
    rw [ho]

theorem exit_nosplit {m : Bool} {a : Analysis} {C' : Component} {b : String} {B' : Block} (hB' : C'.body.get b = some B')
    (hs : splitInstr names B' = none) (hf : B'.fallsTo = none) :
    (toProg names dec main A O').exit (toFn names dec m a C') (toLBlock names B') = .halt ∧
    (toFn names dec m a C').exitArgs (toLBlock names B') = [] ∧ (toFn names dec m a C').exitOp (toLBlock names B') = "STOP" := by
  have h : (toFn names dec m a C').split (toLBlock names B').id = none := by rw [lblock_id hB', fn_split hB', hs]; rfl
  refine ⟨?_, ?_, ?_⟩
  · unfold Program.Prog.exit
    rw [h]
    have : (toLBlock names B').fallsTo = none := hf
    simp only [this, Option.isSome_none]
    rfl
  · unfold Program.Fn.exitArgs; rw [h]; rfl
  · unfold Program.Fn.exitOp; rw [h]; rfl

theorem ordinary_code (hr : Ready names R T H O' dec I main) {comp : Option String} {C : Component} (hC : H.comp comp = some C) {b : String} {B : Block}
    (hB : C.body.get b = some B) {l : List Instr} (hl : ∀ i ∈ l, i ∈ B.instrs) (h1 : ∀ i ∈ l, i.op ∉ names) (h2 : ∀ i ∈ l, i.op ≠ "functionReturn")
    (h3 : ∀ i ∈ l, i.op ∉ haltOps) : ∀ i ∈ l.filter (fun i => !isPhi i), Ordinary names dec I i := by
  intro i hi
  obtain ⟨hi1, hi2⟩ := mem_filter.1 hi
  refine hr.ordinary comp C b B i hC hB (mem_filter.2 ⟨hl i hi1, hi2⟩) ?_
  simp only [cons_append, nil_append, mem_cons, mem_append, not_or]
  exact ⟨h2 i hi1, h3 i hi1, h1 i hi1⟩

/-- The instructions before the last one neither return nor end the execution. -/
theorem init_quiet {B : Block} (hok : PartOk R names B) {l l' : List Instr} (hl : B.instrs = l ++ l') (hne : l' ≠ []) :
    (∀ i ∈ l, i.op ≠ "functionReturn") ∧ ∀ i ∈ l, i.op ∉ haltOps := by
  constructor
  · intro i hi h
    obtain ⟨p, q, rfl⟩ := append_of_mem hi
    have := (hok.onlyReturns p i (q ++ l') (by rw [hl]; simp) h).1
    simp [hne] at this
  · intro i hi h
    obtain ⟨p, q, rfl⟩ := append_of_mem hi
    have := (hok.ends p i (q ++ l') (by rw [hl]; simp) h).1
    simp [hne] at this

/-- In a block with a successor nothing returns or ends the execution. -/
theorem succ_quiet {B : Block} (hok : PartOk R names B) (hty : B.jumpType ≠ "FunctionReturn") (hs : B.jumpTo ≠ none ∨ B.fallsTo ≠ none) :
    (∀ i ∈ B.instrs, i.op ≠ "functionReturn") ∧ ∀ i ∈ B.instrs, i.op ∉ haltOps := by
  constructor
  · intro i hi h
    obtain ⟨p, q, hl⟩ := append_of_mem hi
    exact hty (hok.onlyReturns p i q hl h).2
  · intro i hi h
    obtain ⟨p, q, hl⟩ := append_of_mem hi
    have := (hok.ends p i q hl h).2
    rcases hs with hs | hs
    · exact hs this.1
    · exact hs this.2

theorem code_snoc {l : List Instr} {i : Instr} (hi : isPhi i = false) : (l ++ [i]).filter (fun i => !isPhi i) = l.filter (fun i => !isPhi i) ++ [i] := by
  rw [filter_append]; simp [hi]

section
variable (hr : Ready names R T H O' dec I main)
include hr

/-- A block that ends with a jump. -/
theorem follows_jump {comp : Option String} {C C' : Component} (hC : H.comp comp = some C) (hC' : O'.comp comp = some C')
    (hdc : DecoComp names H T (R comp) (fun _ => False) C C') {b : String} {B : Block} (hB : C.body.get b = some B) {y : String} {t : Nat}
    (hty : B.jumpType = "unconditional") (hj : B.jumpTo = some y) (hf : B.fallsTo = none) (hc : ∀ i ∈ B.instrs, i.op ∉ names)
    (hB' : C'.body.get b = some { B with instrs := B.instrs ++ [pushTag t, ⟨"JUMP", [toString t], []⟩] })
    {e e' : String → V} (he : EnvRel I e e') {st : List (Inline.Frame V × List String)} {fs : List (Program.Frame V)}
    (hs : Frames names R H I main comp st fs) (w : σ) (w0 : σ × Option (String × List V)) :
    Follows names R H dec I main w0 (some ⟨⟨comp, b, code B, e⟩, st, (w, none)⟩)
      (Program.step (toProg names dec main A O') I ⟨nameOf main comp, b, e', fs, w⟩) := by
  have hok := hr.parts.blocks comp C hC b B hB
  have hq := succ_quiet hok (by rw [hty]; decide) (Or.inl (by rw [hj]; simp))
  have hsp : splitInstr names { B with instrs := B.instrs ++ [pushTag t, ⟨"JUMP", [toString t], []⟩] } = some ⟨"JUMP", [toString t], []⟩ :=
    splitInstr_snoc (by simp) (by simp)
  have hcode : (code { B with instrs := B.instrs ++ [pushTag t, ⟨"JUMP", [toString t], []⟩] }).dropLast = code B ++ [pushTag t] := by
    unfold code
    simp [filter_append, pushTag, isPhi]
  obtain ⟨hex, hargs, -, hop⟩ := exit_split (main := main) (A := A) (O' := O') (m := comp.isNone) (a := A comp) hB' hsp (hr.known "JUMP" (by simp))
  obtain ⟨e1, h1, h2⟩ := gets_code hr.parts.fns hC (zeros I) w0 b st [] (code B) e e' w he
    (ordinary_code hr hC hB (fun _ h => h) hc hq.1 hq.2)
  rw [append_nil] at h2
  refine Follows.of_gets h2 ?_
  obtain ⟨e2, h3, h4⟩ := pushTag_run (hr.known "PUSH [tag]" (by simp)) hr.tag t [] h1 (blockRun I (map (toIns dec) (code B)) e' w).2
  have h4' : blockRun I (map (toIns dec) (code B ++ [pushTag t])) e' w = (e2, (blockRun I (map (toIns dec) (code B)) e' w).2) := by
    rw [map_append, blockRun_append]; exact h4
  rw [prog_step hr hC hC' hB' (by rw [hsp]; exact hcode) (hex.trans (if_pos rfl)) hargs hop e' fs w hj hf h4']
  simp only
  obtain ⟨d, d', hd, hd', hm⟩ := go_block (A := A) hr hC hdc hB (n := y) (mem_succs.2 (Or.inl hj)) (lblock_id hB') h3 hs
    (blockRun I (map (toIns dec) (code B)) e' w).2
  rw [hd']
  refine follows_goto ?_ hm
  unfold step
  simp only [hC, hB, leaveBlock, hj, hf]
  exact hd

/-- A block that ends with a branch. -/
theorem follows_branch {comp : Option String} {C C' : Component} (hC : H.comp comp = some C) (hC' : O'.comp comp = some C')
    (hdc : DecoComp names H T (R comp) (fun _ => False) C C') {b : String} {B : Block} (hB : C.body.get b = some B) {y z c : String} {t : Nat}
    (hty : B.jumpType = "conditional") (hj : B.jumpTo = some y) (hf : B.fallsTo = some z) (hcond : B.cond = some c) (hc : ∀ i ∈ B.instrs, i.op ∉ names)
    (hB' : C'.body.get b = some { B with instrs := B.instrs ++ [pushTag t, ⟨"JUMPI", [toString t, c], []⟩] })
    {e e' : String → V} (he : EnvRel I e e') {st : List (Inline.Frame V × List String)} {fs : List (Program.Frame V)}
    (hs : Frames names R H I main comp st fs) (w : σ) (w0 : σ × Option (String × List V)) :
    Follows names R H dec I main w0 (some ⟨⟨comp, b, code B, e⟩, st, (w, none)⟩)
      (Program.step (toProg names dec main A O') I ⟨nameOf main comp, b, e', fs, w⟩) := by
  have hok := hr.parts.blocks comp C hC b B hB
  have hq := succ_quiet hok (by rw [hty]; decide) (Or.inl (by rw [hj]; simp))
  have hsp : splitInstr names { B with instrs := B.instrs ++ [pushTag t, ⟨"JUMPI", [toString t, c], []⟩] } = some ⟨"JUMPI", [toString t, c], []⟩ :=
    splitInstr_snoc (by simp) (by simp)
  have hcode : (code { B with instrs := B.instrs ++ [pushTag t, ⟨"JUMPI", [toString t, c], []⟩] }).dropLast = code B ++ [pushTag t] := by
    unfold code
    simp [filter_append, pushTag, isPhi]
  obtain ⟨hex, hargs, -, hop⟩ := exit_split (main := main) (A := A) (O' := O') (m := comp.isNone) (a := A comp) hB' hsp (hr.known "JUMPI" (by simp))
  have hne : ¬ ("JUMPI" : String) = "JUMP" := by decide
  obtain ⟨e1, h1, h2⟩ := gets_code hr.parts.fns hC (zeros I) w0 b st [] (code B) e e' w he
    (ordinary_code hr hC hB (fun _ h => h) hc hq.1 hq.2)
  rw [append_nil] at h2
  refine Follows.of_gets h2 ?_
  obtain ⟨e2, h3, h4⟩ := pushTag_run (hr.known "PUSH [tag]" (by simp)) hr.tag t [] h1 (blockRun I (map (toIns dec) (code B)) e' w).2
  have h4' : blockRun I (map (toIns dec) (code B ++ [pushTag t])) e' w = (e2, (blockRun I (map (toIns dec) (code B)) e' w).2) := by
    rw [map_append, blockRun_append]; exact h4
  rw [prog_step hr hC hC' hB' (by rw [hsp]; exact hcode) (hex.trans ((if_neg hne).trans (if_pos rfl))) hargs hop e' fs w hj hf h4']
  simp only
  have hcv : I.read e2 c = e1 c := (h3 c (hok.plainCond c hcond)).symm
  have htr : (meaning I dec).truth (e1 c) = true ↔ ¬ e1 c = I.num 0 := by
    show (open Classical in decide (e1 c ≠ I.num 0)) = true ↔ _
    simp
  rw [show (map (I.read e2) [toString t, c])[1]? = some (e1 c) from congrArg some hcv]
  by_cases hz : e1 c = I.num 0
  · rw [if_pos (congrArg some hz)]
    obtain ⟨d, d', hd, hd', hm⟩ := go_block (A := A) hr hC hdc hB (n := z) (mem_succs.2 (Or.inr hf)) (lblock_id hB') h3 hs
      (blockRun I (map (toIns dec) (code B)) e' w).2
    rw [hd']
    refine follows_goto ?_ hm
    unfold step
    simp only [hC, hB, leaveBlock, hj, hf, hcond]
    rw [if_neg (fun h => htr.1 h hz)]
    exact hd
  · rw [if_neg (fun h => hz (Option.some.inj h))]
    obtain ⟨d, d', hd, hd', hm⟩ := go_block (A := A) hr hC hdc hB (n := y) (mem_succs.2 (Or.inl hj)) (lblock_id hB') h3 hs
      (blockRun I (map (toIns dec) (code B)) e' w).2
    rw [hd']
    refine follows_goto ?_ hm
    unfold step
    simp only [hC, hB, leaveBlock, hj, hf, hcond]
    rw [if_pos (htr.2 hz)]
    exact hd

/-- A block without successors and calls. -/
theorem follows_exit {comp : Option String} {C C' : Component} (hC : H.comp comp = some C) (hC' : O'.comp comp = some C')
    {b : String} {B : Block} (hB : C.body.get b = some B)
    (hty : B.jumpType ∈ ["terminal", "mainExit"]) (hj : B.jumpTo = none) (hf : B.fallsTo = none) (hc : ∀ i ∈ B.instrs, i.op ∉ names)
    (hB' : C'.body.get b = some B)
    {e e' : String → V} (he : EnvRel I e e') {st : List (Inline.Frame V × List String)} {fs : List (Program.Frame V)} (w : σ)
    (w0 : σ × Option (String × List V)) :
    Follows names R H dec I main w0 (some ⟨⟨comp, b, code B, e⟩, st, (w, none)⟩)
      (Program.step (toProg names dec main A O') I ⟨nameOf main comp, b, e', fs, w⟩) := by
  have hok := hr.parts.blocks comp C hC b B hB
  have hnret : ∀ i ∈ B.instrs, i.op ≠ "functionReturn" := by
    intro i hi h
    obtain ⟨p, q, hl⟩ := append_of_mem hi
    rw [(hok.onlyReturns p i q hl h).2] at hty
    simp at hty
  by_cases hlast : ∃ l i, B.instrs = l ++ [i] ∧ i.op ∈ haltOps
  · obtain ⟨l, i, hl, hi⟩ := hlast
    have hphi : isPhi i = false := not_phi rfl (by rintro h; rw [h] at hi; simp [haltOps] at hi)
    have hi' : i.op ∈ terminalOps := by
      have := hok.ops i (by rw [hl]; simp)
      simp only [haltOps, terminalOps, mem_cons, not_mem_nil, or_false, not_or] at hi this ⊢
      rcases hi with h | h | h | h | h
      · exact Or.inr (Or.inl h)
      · exact Or.inr (Or.inr (Or.inl h))
      · exact Or.inr (Or.inr (Or.inr (Or.inl h)))
      · exact Or.inr (Or.inr (Or.inr (Or.inr h)))
      · exact absurd h this.2.2.2
    have hsp : splitInstr names B = some i := splitInstr_snoc (by rw [hl]; simp) (mem_append_right _ hi')
    obtain ⟨hex, hargs, -, hop⟩ := exit_split (main := main) (A := A) (O' := O') (m := comp.isNone) (a := A comp) hB' hsp
      (hr.known i.op (mem_append_left _ (mem_append_right _ hi)))
    have hnone : (toProg names dec main A O').fns i.op = none := prog_none hr (hc i (by rw [hl]; simp)) (by
      rintro h
      exact hr.main (mem_append_right _ (h ▸ hi)))
    have hn1 : ¬ i.op = "JUMP" := by rintro h; rw [h] at hi; simp [haltOps] at hi
    have hn2 : ¬ i.op = "JUMPI" := by rintro h; rw [h] at hi; simp [haltOps] at hi
    have hn3 : ¬ i.op = "functionReturn" := by rintro h; rw [h] at hi; simp [haltOps] at hi
    have hcode : code B = l.filter (fun i => !isPhi i) ++ [i] := by unfold code; rw [hl, code_snoc hphi]
    rw [hnone] at hex
    simp only [hn1, hn2, hn3, if_false, Option.isSome_none, Bool.false_eq_true] at hex
    rw [prog_step hr hC hC' hB' (is := l.filter fun i => !isPhi i) (by rw [hsp, hcode]; exact dropLast_concat) hex hargs hop e' fs w hj hf rfl, hcode]
    simp only
    have hq := init_quiet hok hl (by simp)
    obtain ⟨e1, h1, h2⟩ := gets_code hr.parts.fns hC (zeros I) w0 b st [i] (l.filter (fun i => !isPhi i)) e e' w he
      (ordinary_code hr hC hB (fun j h => by rw [hl]; simp [h]) (fun j h => hc j (by rw [hl]; simp [h])) hq.1 hq.2)
    refine Follows.of_gets h2 ?_
    refine follows_halt (s := ((blockRun I (map (toIns dec) (l.filter fun i => !isPhi i)) e' w).2, some (i.op, i.ins.map e1))) ?_ ?_
    · have hfn : H.fns i.op = none := by
        cases hF : H.fns i.op with
        | none => rfl
        | some F => exact absurd ((hr.parts.fns _).2 ⟨F, hF⟩) (hc i (by rw [hl]; simp))
      unfold step
      simp only [hC, hfn, hn3, if_false]
      unfold operate meaning
      simp only [hi, if_true]
      rfl
    · unfold haltedOf
      simp only
      rw [map_rel h1 fun x hx => hok.plain i (by rw [hl]; simp) x (mem_append_left _ hx)]
  · have hnhalt : ∀ i ∈ B.instrs, i.op ∉ haltOps := by
      intro i hi h
      obtain ⟨p, q, hl⟩ := append_of_mem hi
      have := (hok.ends p i q hl h).1
      subst this
      exact hlast ⟨p, i, hl, h⟩
    have hsp : splitInstr names B = none := by
      refine splitInstr_none fun i hi hmem => ?_
      have hi' := mem_of_getLast? hi
      have h1 := hc i hi'
      have h2 := hnret i hi'
      have h3 := hnhalt i hi'
      have h4 := hok.ops i hi'
      simp only [haltOps, terminalOps, mem_cons, not_mem_nil, or_false, not_or, mem_append] at h3 h4 hmem
      rcases hmem with (h | h | h) | h | h | h | h | h
      · exact h1 h
      · exact h4.1 h
      · exact h4.2.1 h
      · exact h2 h
      · exact h3.1 h
      · exact h3.2.1 h
      · exact h3.2.2.1 h
      · exact h3.2.2.2.1 h
    obtain ⟨hex, hargs, hop⟩ := exit_nosplit (main := main) (A := A) (O' := O') (m := comp.isNone) (a := A comp) hB' hsp hf
    rw [prog_step hr hC hC' hB' (is := code B) (by rw [hsp]; rfl) hex hargs hop e' fs w hj hf rfl]
    simp only [map_nil]
    obtain ⟨e1, h1, h2⟩ := gets_code hr.parts.fns hC (zeros I) w0 b st [] (code B) e e' w he
      (ordinary_code hr hC hB (fun j h => h) hc hnret hnhalt)
    rw [append_nil] at h2
    refine Follows.of_gets h2 ?_
    refine follows_halt (s := ((blockRun I (map (toIns dec) (code B)) e' w).2, none)) ?_ rfl
    unfold step
    simp only [hC, hB, leaveBlock, hj, hf]

/-- The last instruction of a decorated block that ends with a call is this call, with tags. -/
theorem deco_last_call {B : Block} {D : List Instr} {ret : Option String} (hd : Deco names H T ret False B D) {l : List Instr} {i : Instr}
    (hl : B.instrs = l ++ [i]) (hi : i.op ∈ names) : ∃ j, splitInstr names { B with instrs := D } = some j ∧ j.op = i.op ∧ j.outs = i.outs := by
  have hmem : i ∈ B.instrs := by rw [hl]; simp
  have hphi : ∀ t, ∀ rt, isPhi (tagCall t rt i) = false := fun t rt => not_phi rfl (by
    rintro h
    exact hr.parts.names _ hi (by rw [show i.op = _ from h]; simp))
  have heq : ∀ (l' : List Instr) (i' : Instr), B.instrs = l' ++ [i'] → i' = i := by
    intro l' i' h
    rw [hl] at h
    exact (by simpa using (append_inj_right' h rfl).symm)
  cases hd with
  | exit hty hj hf hc => exact absurd hi (hc.resolve_left id i hmem)
  | jump y t hty hj hf ht hc => exact absurd hi (hc.resolve_left id i hmem)
  | branch y z c t hty hj hf hcond ht hc => exact absurd hi (hc.resolve_left id i hmem)
  | ret o l' i' hty hj hf hl' hi' ho hc =>
    obtain rfl := heq l' i' hl'
    exact absurd (by simp [hi']) (hr.parts.names _ hi)
  | sub _ _ _ _ _ _ _ _ hraw => exact hraw.elim
  | call l' i' n ft rt ts hts hty hl' hi' hn hj hf hrt hft =>
    obtain rfl := heq l' i' hl'
    exact ⟨_, splitInstr_snoc (getLast_afterPhis (hphi _ _)) (mem_append_left _ (mem_append_left _ hi)), rfl, rfl⟩
  | tail l' i' ft hty hl' hi' hn hj hf hft =>
    obtain rfl := heq l' i' hl'
    exact ⟨_, splitInstr_snoc (getLast_afterPhis (hphi _ _)) (mem_append_left _ (mem_append_left _ hi)), rfl, rfl⟩

/-- A block that returns. -/
theorem follows_ret {comp : Option String} {C C' : Component} (hC : H.comp comp = some C) (hC' : O'.comp comp = some C')
    {b : String} {B : Block} (hB : C.body.get b = some B) {o : String} {l : List Instr} {i : Instr}
    (hty : B.jumpType = "FunctionReturn") (hj : B.jumpTo = none) (hf : B.fallsTo = none) (hl : B.instrs = l ++ [i]) (hi : i.op = "functionReturn")
    (ho : R comp = some o) (hc : ∀ i ∈ l, i.op ∉ names)
    (hB' : C'.body.get b = some { B with instrs := l ++ [{ i with ins := o :: i.ins }] })
    {e e' : String → V} (he : EnvRel I e e') {st : List (Inline.Frame V × List String)} {fs : List (Program.Frame V)}
    (hs : Frames names R H I main comp st fs) (w : σ) (w0 : σ × Option (String × List V)) :
    Follows names R H dec I main w0 (some ⟨⟨comp, b, code B, e⟩, st, (w, none)⟩)
      (Program.step (toProg names dec main A O') I ⟨nameOf main comp, b, e', fs, w⟩) := by
  have hok := hr.parts.blocks comp C hC b B hB
  have hphi : ∀ x, isPhi ({ i with ins := x } : Instr) = false := fun x => not_phi hi (by decide)
  have hcode : code B = l.filter (fun i => !isPhi i) ++ [i] := by unfold code; rw [hl, code_snoc (hphi i.ins)]
  have hcode' : code { B with instrs := l ++ [{ i with ins := o :: i.ins }] } = l.filter (fun i => !isPhi i) ++ [{ i with ins := o :: i.ins }] :=
    code_snoc (hphi _)
  have hsp : splitInstr names { B with instrs := l ++ [{ i with ins := o :: i.ins }] } = some { i with ins := o :: i.ins } :=
    splitInstr_snoc (by simp) (by simp [hi, terminalOps])
  obtain ⟨hex, hargs, -, hop⟩ := exit_split (main := main) (A := A) (O' := O') (m := comp.isNone) (a := A comp) hB' hsp
    (hr.known i.op (by simp [hi]))
  have hn1 : ¬ i.op = "JUMP" := by rw [hi]; decide
  have hn2 : ¬ i.op = "JUMPI" := by rw [hi]; decide
  simp only [hn1, hn2, if_false, hi, if_true] at hex
  have hq := init_quiet hok hl (by simp)
  obtain ⟨e1, h1, h2⟩ := gets_code hr.parts.fns hC (zeros I) w0 b st [i] (l.filter (fun i => !isPhi i)) e e' w he
    (ordinary_code hr hC hB (fun j h => by rw [hl]; simp [h]) (fun j h => hc j h) hq.1 hq.2)
  rw [prog_step hr hC hC' hB' (is := l.filter fun i => !isPhi i) (by rw [hsp, hcode']; exact dropLast_concat) hex hargs hop e' fs w hj hf rfl, hcode]
  refine Follows.of_gets h2 ?_
  simp only [map_cons, drop_succ_cons, drop_zero]
  have hfn : H.fns i.op = none := by
    cases hF : H.fns i.op with
    | none => rfl
    | some F => exact absurd (by simp [hi]) (hr.parts.names _ ((hr.parts.fns _).2 ⟨F, hF⟩))
  cases hs with
  | nil => rw [hr.parts.ret.1] at ho; cases ho
  | @cons comp2 C2 b2 B2 l2 j e2 e2' st2 fs2 hC2 hB2 hl2 hj2 hjn hft he2 hs2 =>
    simp only
    obtain ⟨C2', hC2', hdc2⟩ := hr.deco.some comp2 C2 hC2
    obtain ⟨D2, hB2', hdeco2⟩ := hdc2.some b2 B2 hB2
    obtain ⟨k, hk, hko, hkouts⟩ := deco_last_call hr hdeco2 hl2 hj2
    obtain ⟨-, -, houts, -⟩ := exit_split (main := main) (A := A) (O' := O') (m := comp2.isNone) (a := A comp2) hB2' hk
      (hr.known k.op (by rw [hko]; exact mem_append_right _ hj2))
    rw [prog_comp hr hC2 hC2', Option.bind_some, graph_block, hB2', Option.map_some, Option.bind_some, houts, hkouts, length_map]
    have hstep : step (meaning I dec) (zeros I) H ⟨⟨some j.op, b, [i], e1⟩, (⟨comp2, b2, [], e2⟩, j.outs) :: st2,
        ((blockRun I (map (toIns dec) (l.filter fun i => !isPhi i)) e' w).2, none)⟩ =
        if i.ins.length = j.outs.length then
          .goto ⟨⟨comp2, b2, [], Cfg.assign e2 (j.outs.zip (i.ins.map e1))⟩, st2, ((blockRun I (map (toIns dec) (l.filter fun i => !isPhi i)) e' w).2, none)⟩
        else .stuck := by
      unfold step
      simp only [hC, hfn]
      rw [if_pos hi]
      rfl
    by_cases hlen : i.ins.length = j.outs.length
    · rw [if_pos hlen]
      obtain ⟨n, hn⟩ := hft.resolve_right (by rw [ho]; simp)
      have hrel : EnvRel I (Cfg.assign e2 (j.outs.zip (i.ins.map e1)))
          (SymExec.assign e2' j.outs (i.ins.map (I.read (blockRun I (map (toIns dec) (l.filter fun i => !isPhi i)) e' w).1))) := by
        rw [map_rel h1 fun x hx => hok.plain i (by rw [hl]; simp) x (mem_append_left _ hx)]
        refine rel_assign he2 _ _ fun v hv => ?_
        have hok2 := hr.parts.blocks comp2 C2 hC2 b2 B2 hB2
        exact ⟨hok2.vars j (by rw [hl2]; simp) v hv, (hok2.plain j (by rw [hl2]; simp) v (mem_append_right _ hv)).2.2⟩
      obtain ⟨d, d', hd, hd', hm⟩ := go_block (A := A) hr hC2 hdc2 hB2 (n := n) (mem_succs.2 (Or.inr hn)) (lblock_id hB2') hrel hs2
        (blockRun I (map (toIns dec) (l.filter fun i => !isPhi i)) e' w).2
      have hft2 : (toLBlock names { B2 with instrs := D2 }).fallsTo = some n := hn
      rw [hft2, hd']
      refine Follows.of_gets (.step (by rw [run_some, hstep, if_pos hlen]; rfl) (.refl _)) (follows_goto ?_ hm)
      unfold step
      simp only [hC2, hB2, leaveBlock, hjn, hn]
      exact hd
    · rw [if_neg hlen]
      exact follows_stuck (by rw [hstep, if_neg hlen])

/-- A block that ends with a call. -/
theorem follows_call {comp : Option String} {C C' : Component} (hC : H.comp comp = some C) (hC' : O'.comp comp = some C')
    {b : String} {B : Block} (hB : C.body.get b = some B) {l : List Instr} {i : Instr} {ts : List Nat} {ft : Nat} {rt : Option Nat}
    (hl : B.instrs = l ++ [i]) (hi : i.op ∈ names) (hn : ∀ j ∈ l, j.op ∉ names) (hj : B.jumpTo = none)
    (hrt : (rt.isSome ∧ ∃ n, B.fallsTo = some n) ∨ (rt = none ∧ B.fallsTo = none))
    (hB' : C'.body.get b = some { B with instrs := afterPhis (ts.map pushTag) (l ++ [tagCall ft rt i]) })
    {e e' : String → V} (he : EnvRel I e e') {st : List (Inline.Frame V × List String)} {fs : List (Program.Frame V)}
    (hs : Frames names R H I main comp st fs) (w : σ) (w0 : σ × Option (String × List V)) :
    Follows names R H dec I main w0 (some ⟨⟨comp, b, code B, e⟩, st, (w, none)⟩)
      (Program.step (toProg names dec main A O') I ⟨nameOf main comp, b, e', fs, w⟩) := by
  have hok := hr.parts.blocks comp C hC b B hB
  have hname := hr.parts.names _ hi
  have hphi0 : isPhi i = false := not_phi rfl (by rintro h; exact hname (by simp [h]))
  have hphi : isPhi (tagCall ft rt i) = false := hphi0
  have hcode : code B = l.filter (fun i => !isPhi i) ++ [i] := by unfold code; rw [hl, code_snoc hphi0]
  have hcode' : code { B with instrs := afterPhis (ts.map pushTag) (l ++ [tagCall ft rt i]) } =
      ts.map pushTag ++ l.filter (fun i => !isPhi i) ++ [tagCall ft rt i] := by
    unfold code
    rw [code_afterPhis (by simp [pushTag_not_phi]), code_snoc hphi, append_assoc]
  have hsp : splitInstr names { B with instrs := afterPhis (ts.map pushTag) (l ++ [tagCall ft rt i]) } = some (tagCall ft rt i) :=
    splitInstr_snoc (getLast_afterPhis hphi) (mem_append_left _ (mem_append_left _ hi))
  obtain ⟨hex, hargs, -, hop⟩ := exit_split (main := main) (A := A) (O' := O') (m := comp.isNone) (a := A comp) hB' hsp
    (hr.known i.op (mem_append_right _ hi))
  obtain ⟨F, hF⟩ := (hr.parts.fns i.op).1 hi
  have hFc : H.comp (some i.op) = some F := hF
  obtain ⟨F', hF', hdcF⟩ := hr.deco.some (some i.op) F hFc
  have hPF : (toProg names dec main A O').fns i.op = some (toFn names dec false (A (some i.op)) F') := prog_comp hr hFc hF'
  have hn1 : ¬ (tagCall ft rt i).op = "JUMP" := by rintro h; exact hname (by rw [show i.op = _ from h]; simp)
  have hn2 : ¬ (tagCall ft rt i).op = "JUMPI" := by rintro h; exact hname (by rw [show i.op = _ from h]; simp)
  have hn3 : ¬ (tagCall ft rt i).op = "functionReturn" := by rintro h; exact hname (by rw [show i.op = _ from h]; simp)
  have hn4 : ((toProg names dec main A O').fns (tagCall ft rt i).op).isSome = true := by
    show ((toProg names dec main A O').fns i.op).isSome = true
    rw [hPF]; rfl
  simp only [hn1, hn2, hn3, if_false, hn4, if_true] at hex
  have hq := init_quiet hok hl (by simp)
  have hpush : ∀ (ts : List Nat) (e' : String → V), EnvRel I e e' → ∃ e1', EnvRel I e e1' ∧
      ∀ is, blockRun I (map (toIns dec) (ts.map pushTag ++ is)) e' w = blockRun I (map (toIns dec) is) e1' w := by
    intro ts
    induction ts with
    | nil => intro e' he; exact ⟨e', he, fun _ => rfl⟩
    | cons t ts ih =>
      intro e' he
      obtain ⟨e1, h1, -⟩ := pushTag_run (hr.known "PUSH [tag]" (by simp)) hr.tag t [] he w
      refine (ih _ (rel_other he [toString t] (I.ins (toIns dec (pushTag t)) e' w).1 (by simpa using tag_not_plain t))).imp fun e2 h2 => ⟨h2.1, fun is => ?_⟩
      rw [← h2.2 is]
      show blockRun I _ (SymExec.assign e' [toString t] _) (I.ins (toIns dec (pushTag t)) e' w).2 = _
      have hins : (I.ins (toIns dec (pushTag t)) e' w).2 = w := by
        have hop : (toIns dec (pushTag t)).op = "PUSH [tag]" := by show (dec "PUSH [tag]").1 = _; rw [hr.known "PUSH [tag]" (by simp)]
        have hname : (toIns dec (pushTag t)).name = "PUSH [TAG]" := by unfold Ins.name; rw [hop]; decide +kernel
        unfold Interp.ins
        rw [if_neg (by rw [hop]; decide), if_neg (by rw [hop]; decide), hname]
        unfold Ins.extra
        rw [if_neg (by rw [hop]; decide), if_pos hname]
        exact hr.tag _ _
      rw [hins]
      rfl
  obtain ⟨e3, h5, h6⟩ := hpush ts e' he
  obtain ⟨e1, h1, h2⟩ := gets_code hr.parts.fns hC (zeros I) w0 b st [i] (l.filter (fun i => !isPhi i)) e e3 w h5
    (ordinary_code hr hC hB (fun j h => by rw [hl]; simp [h]) (fun j h => hn j h) hq.1 hq.2)
  rw [prog_step hr hC hC' hB' (is := ts.map pushTag ++ l.filter fun i => !isPhi i) (by rw [hsp, hcode']; exact dropLast_concat) hex hargs hop e' fs w
    hj rfl (h6 _), hcode]
  refine Follows.of_gets h2 ?_
  simp only
  rw [show (tagCall ft rt i).op = i.op from rfl, hPF, Option.bind_some]
  generalize hrr : blockRun I (map (toIns dec) (l.filter fun i => !isPhi i)) e3 w = r at h1 ⊢
  have hins : (map (I.read r.1) (tagCall ft rt i).ins).drop 1 = i.ins.map e1 ++ rt.toList.map fun t => I.read r.1 (toString t) := by
    rw [map_rel h1 fun x hx => hok.plain i (by rw [hl]; simp) x (mem_append_left _ hx)]
    show ((I.read r.1) (toString ft) :: map (I.read r.1) (i.ins ++ rt.toList.map toString)).drop 1 = _
    rw [drop_succ_cons, drop_zero, map_append, map_map]
    rfl
  have hinputs : (toFn names dec false (A (some i.op)) F').graph.inputs = F.args.reverse ++ (R (some i.op)).toList := by
    show F'.args.reverse = _
    rw [hdcF.args, reverse_append]
    cases R (some i.op) <;> rfl
  have htails := hok.tails l i [] hl hi
  have hRt : (rt = none ∧ R (some i.op) = none) ∨ ∃ t, rt = some t ∧ R (some i.op) = some ("out_" ++ i.op) := by
    rcases hrt with ⟨h, n, hn⟩ | ⟨h, hf⟩
    · right
      obtain ⟨t, rfl⟩ := Option.isSome_iff_exists.1 h
      refine ⟨t, rfl, (hr.parts.ret.2 i.op).resolve_left fun h => ?_⟩
      rw [htails.1 h |>.2.2] at hn
      cases hn
    · left
      exact ⟨h, htails.2 ⟨rfl, hj, hf⟩⟩
  have hfns : (∃ n, B.fallsTo = some n) ∨ R (some i.op) = none := by
    rcases hrt with ⟨_, h⟩ | ⟨h, hf⟩
    · exact Or.inl h
    · exact Or.inr (htails.2 ⟨rfl, hj, hf⟩)
  rw [hins, hinputs]
  obtain ⟨s, S, hsS, hSb⟩ := (hr.parts.sane _ _ hFc).start
  have hps : phis S = [] := hr.parts.start _ _ hFc s S hsS hSb
  have hstart : (toFn names dec false (A (some i.op)) F').graph.start = s := by
    show F'.body.start.getD "" = s
    rw [hdcF.start, hsS]; rfl
  rw [hstart]
  have hlen : ((i.ins.map e1 ++ rt.toList.map fun t => I.read r.1 (toString t)).length = (F.args.reverse ++ (R (some i.op)).toList).length) ↔
      i.ins.length = F.args.length := by
    rcases hRt with ⟨h, h'⟩ | ⟨t, h, h'⟩
    · rw [h, h']; simp
    · rw [h, h']; simp
  have hstep : step (meaning I dec) (zeros I) H ⟨⟨comp, b, [i], e1⟩, st, (r.2, none)⟩ =
      if i.ins.length = F.args.length then
        .goto ⟨⟨some i.op, s, code S, Cfg.assign (zeros I) (F.args.reverse.zip (i.ins.map e1))⟩, (⟨comp, b, [], e1⟩, i.outs) :: st, (r.2, none)⟩
      else .stuck := by
    have hps' : S.instrs.filter isPhi = [] := hps
    unfold step
    simp only [hC, hF, callFn, hsS, Inline.goto, hSb, enter, enterWith, hps', if_true]
  by_cases hle : i.ins.length = F.args.length
  · rw [if_pos (hlen.2 hle)]
    refine follows_goto (by rw [hstep, if_pos hle]) ?_
    refine Match.mk (comp := some i.op) hFc hSb ?_ (.cons hC hB hl hi hj hfns h1 hs)
    have hargs := hr.parts.args i.op F hF
    have hrel : EnvRel I (Cfg.assign (zeros I) (F.args.reverse.zip (i.ins.map e1))) (SymExec.assign (fun _ => I.num 0) F.args.reverse (i.ins.map e1)) :=
      rel_assign rel_zeros _ _ fun v hv => by
        have := hargs v (mem_reverse.1 hv)
        exact ⟨this.2, this.1.2.2⟩
    rcases hRt with ⟨h, h'⟩ | ⟨t, h, h'⟩
    · rw [h, h']
      simpa using hrel
    · rw [h, h']
      simp only [Option.toList_some, map_cons, map_nil]
      rw [assign_snoc (by simp [hle])]
      exact rel_other hrel _ _ (by simpa using out_not_plain i.op)
  · rw [if_neg (fun h => hle (hlen.1 h))]
    exact follows_stuck (by rw [hstep, if_neg hle])

/-- The object follows every step of the program. -/
theorem follows {c : Inline.Conf V (σ × Option (String × List V))} {c' : Program.Config V σ} (hm : Match names R H I main c c')
    (w0 : σ × Option (String × List V)) : Follows names R H dec I main w0 (some c) (Program.step (toProg names dec main A O') I c') := by
  obtain ⟨hC, hB, he, hs⟩ := hm
  rename_i comp C b B e e' st fs w
  obtain ⟨C', hC', hdc⟩ := hr.deco.some comp C hC
  obtain ⟨D, hB', hdeco⟩ := hdc.some b B hB
  cases hdeco with
  | exit hty hj hf hc => exact follows_exit hr hC hC' hB hty hj hf (hc.resolve_left id) hB' he w w0
  | jump y t hty hj hf ht hc => exact follows_jump hr hC hC' hdc hB hty hj hf (hc.resolve_left id) hB' he hs w w0
  | branch y z c t hty hj hf hcond ht hc => exact follows_branch hr hC hC' hdc hB hty hj hf hcond (hc.resolve_left id) hB' he hs w w0
  | ret o l i hty hj hf hl hi ho hc => exact follows_ret hr hC hC' hB hty hj hf hl hi ho (hc.resolve_left id) hB' he hs w w0
  | sub _ _ _ _ _ _ _ _ hraw => exact hraw.elim
  | call l i n ft rt ts hts hty hl hi hn hj hf hrt hft =>
    exact follows_call hr hC hC' hB (ts := ts) (rt := some rt) hl hi hn hj (Or.inl ⟨rfl, n, hf⟩) hB' he hs w w0
  | tail l i ft hty hl hi hn hj hf hft =>
    exact follows_call hr hC hC' hB (ts := [ft]) (rt := none) hl hi hn hj (Or.inr ⟨rfl, hf⟩) hB' he hs w w0

end
end
end Grey.Lower
