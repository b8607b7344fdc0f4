/-
The program does what the object does, block by block.
-/
import Verif.Lower.Env
import Verif.Cfg.Lemmas
namespace Grey.Lower
open List Grey.Cfg Grey.Inline Grey.Sfs

/-! ### Instructions of decorated blocks -/

theorem filter_takeWhile {p : Instr → Bool} (l : List Instr) : (l.takeWhile p).filter (fun i => !p i) = [] := by
  induction l with
  | nil => rfl
  | cons i l ih =>
    rw [takeWhile_cons]
    split
    · rename_i h
      rw [filter_cons, if_neg (by simp [h]), ih]
    · rfl

theorem code_afterPhis {new l : List Instr} (hn : ∀ i ∈ new, isPhi i = false) :
    (afterPhis new l).filter (fun i => !isPhi i) = new ++ l.filter fun i => !isPhi i := by
  unfold afterPhis
  have h1 : new.filter (fun i => !isPhi i) = new := by rw [filter_eq_self]; intro i hi; simp [hn i hi]
  conv_rhs => rw [← takeWhile_append_dropWhile (p := isPhi) (l := l)]
  simp only [filter_append, filter_takeWhile, h1, nil_append]

theorem phis_afterPhis {new l : List Instr} (hn : ∀ i ∈ new, isPhi i = false) : (afterPhis new l).filter isPhi = l.filter isPhi := by
  unfold afterPhis
  have h1 : new.filter isPhi = [] := by rw [filter_eq_nil_iff]; intro i hi; simp [hn i hi]
  conv_rhs => rw [← takeWhile_append_dropWhile (p := isPhi) (l := l)]
  simp only [filter_append, h1, append_nil]

theorem getLast_afterPhis {new l : List Instr} {i : Instr} (hi : isPhi i = false) : (afterPhis new (l ++ [i])).getLast? = some i := by
  unfold afterPhis
  have : ∃ m, (l ++ [i]).dropWhile isPhi = m ++ [i] := by
    induction l with
    | nil => exact ⟨[], by simp [hi]⟩
    | cons j l ih =>
      rw [cons_append, dropWhile_cons]
      split
      · exact ih
      · exact ⟨j :: l, rfl⟩
  obtain ⟨m, hm⟩ := this
  rw [hm, ← append_assoc, getLast?_append]
  simp

theorem phi_op {i : Instr} : isPhi i = true ↔ i.op = "PhiFunction" := by unfold isPhi; rw [beq_iff_eq]

theorem not_phi {i : Instr} {o : String} (h : i.op = o) (ho : o ≠ "PhiFunction") : isPhi i = false := by
  cases hh : isPhi i with
  | false => rfl
  | true => exact absurd (h.symm.trans (phi_op.1 hh)) ho

theorem pushTag_not_phi (t : Nat) : isPhi (pushTag t) = false := not_phi (o := "PUSH [tag]") rfl (by decide)

/-- The phi functions are left alone. -/
theorem deco_phis {names : List String} (hnames : ∀ f ∈ names, f ≠ "PhiFunction") {H : Obj} {T : TagDict} {ret : Option String} {raw : Prop}
    {B : Block} {D : List Instr} (h : Deco names H T ret raw B D) : D.filter isPhi = phis B := by
  unfold phis
  cases h with
  | exit => rfl
  | jump y t hty hj hf ht hc =>
    rw [filter_append]
    have : filter isPhi [pushTag t, ⟨"JUMP", [toString t], []⟩] = [] := by simp [pushTag, isPhi]
    rw [this, append_nil]
  | branch y z c t hty hj hf hcond ht hc =>
    rw [filter_append]
    have : filter isPhi [pushTag t, ⟨"JUMPI", [toString t, c], []⟩] = [] := by simp [pushTag, isPhi]
    rw [this, append_nil]
  | ret o l i hty hj hf hl hi ho hc =>
    rw [hl, filter_append, filter_append]
    congr 1
    simp [filter_cons, isPhi, hi]
  | sub => rfl
  | call l i n ft rt ts hts hty hl hi hn hj hf hrt hft =>
    rw [phis_afterPhis (by simp [pushTag_not_phi]), hl, filter_append, filter_append]
    congr 1
    have h1 : isPhi i = false := not_phi rfl (hnames _ hi)
    have h2 : isPhi (tagCall ft (some rt) i) = false := not_phi rfl (hnames _ hi)
    simp [h1, h2]
  | tail l i ft hty hl hi hn hj hf hft =>
    rw [phis_afterPhis (by simp [pushTag_not_phi]), hl, filter_append, filter_append]
    congr 1
    have h1 : isPhi i = false := not_phi rfl (hnames _ hi)
    have h2 : isPhi (tagCall ft none i) = false := not_phi rfl (hnames _ hi)
    simp [h1, h2]

theorem splitInstr_snoc {names : List String} {B : Block} {i : Instr} (h : B.instrs.getLast? = some i)
    (hi : i.op ∈ names ++ ["JUMP", "JUMPI"] ++ terminalOps) : splitInstr names B = some i := by
  unfold splitInstr
  rw [h, Option.filter_some, if_pos (by simpa using hi)]

theorem splitInstr_none {names : List String} {B : Block} (h : ∀ i, B.instrs.getLast? = some i → i.op ∉ names ++ ["JUMP", "JUMPI"] ++ terminalOps) :
    splitInstr names B = none := by
  unfold splitInstr
  cases hl : B.instrs.getLast? with
  | none => rfl
  | some i => rw [Option.filter_some, if_neg (by simpa using h i hl)]

/-! ### Configurations -/

section
variable {V σ : Type} {names : List String} {R : Option String → Option String} {T : TagDict} {H O' : Obj}
  {dec : String → String × Option (List String)} {I : Interp V σ} {main : String} {A : Option String → Analysis}

/-- The name of a component in the program. -/
def nameOf (main : String) : Option String → String
  | none => main
  | some f => f

/-- The calls that have not returned. `g` is the component that runs now. Blocks end with calls. -/
inductive Frames (names : List String) (R : Option String → Option String) (H : Obj) (I : Interp V σ) (main : String) :
    Option String → List (Inline.Frame V × List String) → List (Program.Frame V) → Prop
  | nil : Frames names R H I main none [] []
  | cons {comp : Option String} {C : Component} {b : String} {B : Block} {l : List Instr} {i : Instr} {e e' : String → V}
      {st : List (Inline.Frame V × List String)} {fs : List (Program.Frame V)} (hC : H.comp comp = some C) (hB : C.body.get b = some B)
      (hl : B.instrs = l ++ [i]) (hi : i.op ∈ names) (hj : B.jumpTo = none) (hf : (∃ n, B.fallsTo = some n) ∨ R (some i.op) = none)
      (he : EnvRel I e e') (hs : Frames names R H I main comp st fs) :
      Frames names R H I main (some i.op) ((⟨comp, b, [], e⟩, i.outs) :: st) (⟨nameOf main comp, b, e'⟩ :: fs)

/-- Both machines are at the beginning of the same block. -/
inductive Match (names : List String) (R : Option String → Option String) (H : Obj) (I : Interp V σ) (main : String) :
    Inline.Conf V (σ × Option (String × List V)) → Program.Config V σ → Prop
  | mk {comp : Option String} {C : Component} {b : String} {B : Block} {e e' : String → V} {st : List (Inline.Frame V × List String)}
      {fs : List (Program.Frame V)} {w : σ} (hC : H.comp comp = some C) (hB : C.body.get b = some B) (he : EnvRel I e e')
      (hs : Frames names R H I main comp st fs) :
      Match names R H I main ⟨⟨comp, b, code B, e⟩, st, (w, none)⟩ ⟨nameOf main comp, b, e', fs, w⟩

/-- The machine of the object follows a step of the program. -/
def Follows (names : List String) (R : Option String → Option String) (H : Obj) (dec : String → String × Option (List String)) (I : Interp V σ)
    (main : String) (w0 : σ × Option (String × List V)) (c : Option (Inline.Conf V (σ × Option (String × List V)))) :
    Option (Program.Config V σ ⊕ Program.Halted V σ) → Prop
  | some (.inl d') => ∃ m d, run (meaning I dec) (zeros I) H w0 c = .goto m ∧ Gets (run (meaning I dec) (zeros I) H w0) m (some d) ∧
      Match names R H I main d d'
  | some (.inr h) => ∃ s, Ends (run (meaning I dec) (zeros I) H w0) c s ∧ haltedOf s = h
  | none => Wrong (run (meaning I dec) (zeros I) H w0) c

theorem ends_of_gets {C S : Type} {f : C → Out C S} {a b : C} (h : Gets f a b) {s : S} (he : Ends f b s) : Ends f a s := by
  induction h with
  | refl => exact he
  | step h1 _ ih => exact .later h1 (ih he)

theorem wrong_of_gets {C S : Type} {f : C → Out C S} {a b : C} (h : Gets f a b) (he : Wrong f b) : Wrong f a := by
  induction h with
  | refl => exact he
  | step h1 _ ih => exact .later h1 (ih he)

theorem Follows.of_gets {w0 : σ × Option (String × List V)} {a b : Option (Inline.Conf V (σ × Option (String × List V)))}
    (h : Gets (run (meaning I dec) (zeros I) H w0) a b) {o : Option (Program.Config V σ ⊕ Program.Halted V σ)}
    (hf : Follows names R H dec I main w0 b o) : Follows names R H dec I main w0 a o := by
  match o with
  | some (.inl d') =>
    obtain ⟨m, d, h1, h2, h3⟩ := hf
    cases h with
    | refl => exact ⟨m, d, h1, h2, h3⟩
    | @step _ x _ h4 h5 => exact ⟨x, d, h4, gets_trans h5 (.step h1 h2), h3⟩
  | some (.inr hh) =>
    obtain ⟨s, h1, h2⟩ := hf
    exact ⟨s, ends_of_gets h h1, h2⟩
  | none => exact wrong_of_gets h hf

theorem run_some (w0 : σ × Option (String × List V)) (c : Inline.Conf V (σ × Option (String × List V))) :
    run (meaning I dec) (zeros I) H w0 (some c) = (step (meaning I dec) (zeros I) H c).map some := rfl

/-- A step of the object that goes to a configuration that matches. -/
theorem follows_goto {w0 : σ × Option (String × List V)} {c d : Inline.Conf V (σ × Option (String × List V))} {d' : Program.Config V σ}
    (h : step (meaning I dec) (zeros I) H c = .goto d) (hm : Match names R H I main d d') : Follows names R H dec I main w0 (some c) (some (.inl d')) :=
  ⟨some d, d, by rw [run_some, h]; rfl, .refl _, hm⟩

theorem follows_halt {w0 s : σ × Option (String × List V)} {c : Inline.Conf V (σ × Option (String × List V))} {hh : Program.Halted V σ}
    (h : step (meaning I dec) (zeros I) H c = .halt s) (hm : haltedOf s = hh) : Follows names R H dec I main w0 (some c) (some (.inr hh)) :=
  ⟨s, .now (by rw [run_some, h]; rfl), hm⟩

theorem follows_stuck {w0 : σ × Option (String × List V)} {c : Inline.Conf V (σ × Option (String × List V))}
    (h : step (meaning I dec) (zeros I) H c = .stuck) : Follows names R H dec I main w0 (some c) none :=
  .now (by rw [run_some, h]; rfl)

/-! ### Entering blocks -/

theorem execPhis_notin {V : Type} (env : String → V) (k : Nat) (ps : List Instr) {x : String} (h : ∀ i ∈ ps, x ∉ i.outs) : execPhis env k ps x = env x := by
  unfold execPhis
  have key : ∀ (l : List (String × V)) (e : String → V), (∀ p ∈ l, p.1 ≠ x) → Cfg.assign e l x = e x := by
    intro l
    induction l with
    | nil => intro e _; rfl
    | cons p l ih =>
      intro e hp
      show Cfg.assign (fun y => if y = p.1 then p.2 else e y) l x = _
      rw [ih _ fun q hq => hp q (mem_cons_of_mem _ hq)]
      exact if_neg (Ne.symm (hp p mem_cons_self))
  apply key
  intro p hp hpx
  obtain ⟨i, hi, he⟩ := mem_filterMap.1 hp
  split at he
  · rename_i y a h1 h2
    cases he
    simp only at hpx
    subst hpx
    exact h i hi (by rw [h1]; simp)
  · cases he

theorem execPhis_out {V : Type} (env : String → V) (k : Nat) {ps : List Instr} (hn : (ps.flatMap (·.outs)).Nodup) {i : Instr} (hi : i ∈ ps) {x a : String}
    (ho : i.outs = [x]) (ha : i.ins[k]? = some a) : execPhis env k ps x = env a := by
  obtain ⟨l, l', rfl⟩ := append_of_mem hi
  have hl' : ∀ j ∈ l', x ∉ j.outs := by
    intro j hj hx
    rw [flatMap_append, flatMap_cons, nodup_append] at hn
    have h2 := (nodup_append.1 hn.2.1).2.2
    exact h2 x (by rw [ho]; simp) x (mem_flatMap.2 ⟨j, hj, hx⟩) rfl
  unfold execPhis
  rw [filterMap_append, filterMap_cons]
  simp only [ho, ha]
  have assign_append : ∀ (p q : List (String × V)) (e : String → V), Cfg.assign e (p ++ q) = Cfg.assign (Cfg.assign e p) q := by
    intro p
    induction p with
    | nil => intro q e; rfl
    | cons a p ih => intro q e; exact ih _ _
  rw [assign_append]
  show Cfg.assign (fun y => if y = x then env a else _) _ x = _
  have key : ∀ (l : List (String × V)) (e : String → V), (∀ p ∈ l, p.1 ≠ x) → Cfg.assign e l x = e x := by
    intro l
    induction l with
    | nil => intro e _; rfl
    | cons p l ih =>
      intro e hp
      show Cfg.assign (fun y => if y = p.1 then p.2 else e y) l x = _
      rw [ih _ fun q hq => hp q (mem_cons_of_mem _ hq)]
      exact if_neg (Ne.symm (hp p mem_cons_self))
  rw [key]
  · simp
  · intro p hp hpx
    obtain ⟨j, hj, he⟩ := mem_filterMap.1 hp
    split at he
    · rename_i y b h1 h2
      cases he
      simp only at hpx
      subst hpx
      exact hl' j hj (by rw [h1]; simp)
    · cases he

theorem enter_rel {X : Block} (hX : PartOk R names X) {k : Nat} (hk : k < X.entries.length) {e e' : String → V} (he : EnvRel I e e') :
    EnvRel I (execPhis e k (phis X)) (Program.enter I ((phis X).map fun i => { out := i.outs.headD "", args := i.ins }) k e') := by
  have hsub : ∀ i ∈ phis X, i ∈ X.instrs := fun i hi => mem_of_mem_filter hi
  intro x hx
  by_cases hmem : ∃ i ∈ phis X, x ∈ i.outs
  · obtain ⟨i, hi, hxi⟩ := hmem
    obtain ⟨hlen, y, hy⟩ := hX.phiShape i hi
    rw [hy, mem_singleton] at hxi
    subst hxi
    have hk' : k < i.ins.length := by rw [hlen]; exact hk
    have ha : i.ins[k]? = some i.ins[k] := getElem?_eq_getElem hk'
    rw [execPhis_out e k hX.phiOuts hi hy ha]
    have hc : Cfg.isConst x = false := hX.vars i (hsub i hi) x (by rw [hy]; simp)
    rw [read_var hc hx.2.2]
    unfold Program.enter
    have hfind : ((phis X).map fun i => ({ out := i.outs.headD "", args := i.ins } : Layout.Phi)).find? (fun f => f.out == x) =
        some { out := x, args := i.ins } := by
      obtain ⟨l, l', hl⟩ := append_of_mem hi
      have hno := hX.phiOuts
      rw [hl] at hno ⊢
      have hl0 : ∀ j ∈ l, j.outs.headD "" ≠ x := by
        intro j hj hh
        have hjm : j ∈ phis X := by rw [hl]; exact mem_append_left _ hj
        obtain ⟨_, z, hz⟩ := hX.phiShape j hjm
        rw [hz] at hh
        simp only [headD_cons] at hh
        subst hh
        rw [flatMap_append, flatMap_cons, nodup_append] at hno
        exact hno.2.2 z (mem_flatMap.2 ⟨j, hj, by rw [hz]; simp⟩) z (mem_append_left _ (by rw [hy]; simp)) rfl
      rw [map_append, find?_append, map_cons, find?_cons]
      have h1 : find? (fun f : Layout.Phi => f.out == x) (map (fun i => ({ out := i.outs.headD "", args := i.ins } : Layout.Phi)) l) = none := by
        rw [find?_eq_none]
        intro f hf
        obtain ⟨j, hj, rfl⟩ := mem_map.1 hf
        simpa using hl0 j hj
      rw [h1]
      simp [hy]
    rw [hfind]
    simp only [ha]
    exact he _ (hX.plain i (hsub i hi) _ (mem_append_left _ (getElem_mem hk')))
  · have hmem' : ∀ i ∈ phis X, x ∉ i.outs := fun i hi hx => hmem ⟨i, hi, hx⟩
    rw [execPhis_notin e k _ hmem', he x hx]
    refine read_congr ?_
    unfold Program.enter
    have : ((phis X).map fun i => ({ out := i.outs.headD "", args := i.ins } : Layout.Phi)).find? (fun f => f.out == x) = none := by
      rw [find?_eq_none]
      intro f hf
      obtain ⟨j, hj, rfl⟩ := mem_map.1 hf
      obtain ⟨_, z, hz⟩ := hX.phiShape j hj
      have := hmem' j hj
      rw [hz] at this
      simp only [hz, headD_cons, beq_iff_eq]
      rintro rfl
      simp at this
    rw [this]

theorem enter_no_phis {e' : String → V} {k : Nat} : Program.enter I [] k e' = e' := by
  funext x
  unfold Program.enter
  rfl

theorem graph_block (names : List String) (dec : String → String × Option (List String)) (m : Bool) (a : Analysis) (C : Component) (b : String) :
    (toFn names dec m a C).graph.block b = (C.body.get b).map (toLBlock names) := by
  unfold Layout.Component.block toFn BlockList.get
  simp only
  rw [find?_map]
  rfl

/-! ### The program of the lowered object -/

/-- What the correspondence needs. -/
structure Ready (names : List String) (R : Option String → Option String) (T : TagDict) (H O' : Obj) (dec : String → String × Option (List String))
    (I : Interp V σ) (main : String) : Prop where
  parts : PartsOk names R H
  deco : Decorated names R T (fun _ _ => False) H O'
  known : ∀ o ∈ ["functionReturn", "JUMP", "JUMPI", "PUSH [tag]"] ++ haltOps ++ names, dec o = (o, none)
  ordinary : ∀ c C x X i, H.comp c = some C → C.body.get x = some X → i ∈ code X → i.op ∉ ["functionReturn"] ++ haltOps ++ names → Ordinary names dec I i
  tag : ∀ t w, (I.op "PUSH [TAG]" (some [t]) [] w).2 = w
  main : main ∉ names ++ haltOps

theorem prog_comp (hr : Ready names R T H O' dec I main) {comp : Option String} {C C' : Component} (hC : H.comp comp = some C)
    (hC' : O'.comp comp = some C') : (toProg names dec main A O').fns (nameOf main comp) = some (toFn names dec comp.isNone (A comp) C') := by
  cases comp with
  | none =>
    show (if main = main then _ else _) = _
    rw [if_pos rfl, hC']; rfl
  | some f =>
    have hf : f ∈ names := (hr.parts.fns f).2 ⟨C, hC⟩
    have hne : f ≠ main := by
      rintro rfl
      exact hr.main (mem_append_left _ hf)
    show (if f = main then _ else _) = _
    have hC'' : O'.fns f = some C' := hC'
    rw [if_neg hne]
    show (O'.fns f).map (toFn names dec false (A (some f))) = _
    rw [hC'']; rfl

theorem prog_none (hr : Ready names R T H O' dec I main) {o : String} (ho : o ∉ names) (hm : o ≠ main) : (toProg names dec main A O').fns o = none := by
  show (if o = main then _ else _) = _
  rw [if_neg hm]
  have : O'.comp (some o) = none := hr.deco.none (some o) (by
    cases h : H.comp (some o) with
    | none => rfl
    | some F => exact absurd ((hr.parts.fns o).2 ⟨F, h⟩) ho)
  have : O'.fns o = none := this
  rw [this]; rfl

theorem fn_split {names : List String} {m : Bool} {a : Analysis} {C' : Component} {b : String} {B' : Block} (h : C'.body.get b = some B') :
    (toFn names dec m a C').split b = (splitInstr names B').map (toIns dec) := by
  unfold toFn
  simp only [h]; rfl

theorem fn_instrs {names : List String} {m : Bool} {a : Analysis} {C' : Component} {b : String} {B' : Block} (h : C'.body.get b = some B') :
    (toFn names dec m a C').instrs b = (if (splitInstr names B').isSome then (code B').dropLast else code B').map (toIns dec) := by
  unfold toFn
  simp only [h]; rfl

theorem lblock_id {names : List String} {C' : Component} {b : String} {B' : Block} (h : C'.body.get b = some B') : (toLBlock names B').id = b :=
  get_id h

theorem idxOf?_mem {l : List String} {x : String} (h : x ∈ l) : l.idxOf? x = some (l.idxOf x) := by
  induction l with
  | nil => cases h
  | cons a l ih =>
    rw [idxOf?_cons, idxOf_cons]
    by_cases ha : a == x
    · simp [ha]
    · have : x ∈ l := by
        rcases mem_cons.1 h with rfl | h
        · simp at ha
        · exact h
      simp [ha, ih this]

/-- From a block to a successor. -/
theorem go_block (hr : Ready names R T H O' dec I main) {comp : Option String} {C C' : Component} (hC : H.comp comp = some C)
    (hdc : DecoComp names H T (R comp) (fun _ => False) C C') {b n : String} {B : Block} (hB : C.body.get b = some B) (hn : n ∈ B.succs)
    {L : Layout.LBlock} (hL : L.id = b) {e e' : String → V} (he : EnvRel I e e') {st : List (Inline.Frame V × List String)} {fs : List (Program.Frame V)}
    (hs : Frames names R H I main comp st fs) (w : σ) : ∃ d d', Inline.goto C.body comp (some b) n e st (w, none) = .goto d ∧
      Program.goto I (nameOf main comp) (toFn names dec comp.isNone (A comp) C') L (some n) e' fs w = some d' ∧ Match names R H I main d d' := by
  have hsane := hr.parts.sane comp C hC
  obtain ⟨Q, hQ⟩ := hsane.coherent.targets b B hB n hn
  have hbQ : b ∈ Q.comesFrom := (hsane.coherent.edges b n B Q hB hQ).2 hn
  obtain ⟨D, hD, hdeco⟩ := hdc.some n Q hQ
  have hok := hr.parts.blocks comp C hC n Q hQ
  have hnames : ∀ f ∈ names, f ≠ "PhiFunction" := by
    rintro f hf rfl
    exact hr.parts.names _ hf (by simp)
  have hphis : phis { Q with instrs := D } = phis Q := deco_phis hnames hdeco
  have hid : Q.id = n := get_id hQ
  have hprog : Program.goto I (nameOf main comp) (toFn names dec comp.isNone (A comp) C') L (some n) e' fs w =
      some ⟨nameOf main comp, n, Program.enter I ((phis Q).map fun i => { out := i.outs.headD "", args := i.ins })
        ((toLBlock names { Q with instrs := D }).preds.idxOf b) e', fs, w⟩ := by
    unfold Program.goto
    rw [Option.bind_some, graph_block, hD]
    simp only [Option.map_some, Option.some.injEq]
    rw [hL]
    have h1 : (toLBlock names { Q with instrs := D }).id = n := hid
    have h2 : (toLBlock names { Q with instrs := D }).phis = (phis Q).map fun i => ({ out := i.outs.headD "", args := i.ins } : Layout.Phi) := by
      rw [← hphis]; rfl
    rw [h1, h2]
  rw [hprog]
  by_cases hp : phis Q = []
  · refine ⟨_, _, ?_, rfl, .mk hC hQ (e := e) ?_ hs⟩
    · unfold Inline.goto enter
      have hp' : Q.instrs.filter isPhi = [] := hp
      rw [hQ]
      simp only [enterWith, hp', if_true]
    · rw [hp]; exact he
  · have hbE := hok.phiEntries hp b hbQ
    have hpreds : (toLBlock names { Q with instrs := D }).preds = Q.entries := by
      unfold Layout.LBlock.preds toLBlock
      simp only
      rw [if_neg]
      intro h; rw [h] at hbE; simp at hbE
    have hidx := idxOf?_mem hbE
    rw [hpreds]
    refine ⟨_, _, ?_, rfl, .mk hC hQ (e := execPhis e (Q.entries.idxOf b) (phis Q)) (enter_rel hok (idxOf_lt_length_of_mem hbE) he) hs⟩
    unfold Inline.goto enter
    have hp' : Q.instrs.filter isPhi ≠ [] := hp
    rw [hQ]
    simp only [enterWith, if_neg hp', Option.bind_some, hidx, Option.map_some]
    rfl

end
end Grey.Lower
