/-
The program for the layout generation that the lowering produces is one that the layout generation and the assembly can handle.
-/
import Verif.Whole.Names
import Verif.Whole.Spec
import Verif.Lower.View
import Verif.Lower.Theorem
import Verif.Inline.Check
namespace Grey.Whole
open List Grey.Cfg Grey.Inline Grey.Lower Grey.Sfs Grey.Program Grey.SymExec

section
variable {V σ : Type} {names : List String} {R : Option String → Option String} {f2t : List (String × Nat)} {T : TagDict} {O H O' : Obj}
  {dec : String → String × Option (List String)} {I : Interp V σ} {main : String} {A : Option String → Analysis} {arity : String → Nat}
  {val : Nat → V}

/-! ### Components and blocks of the program -/

theorem nameOf_main (hr : Ready names R T H O' dec I main) {comp : Option String} {C : Component} (hC : H.comp comp = some C) :
    nameOf main comp = main ↔ comp = none := by
  cases comp with
  | none => simp [nameOf]
  | some f =>
    have hf : f ∈ names := (hr.parts.fns f).2 ⟨C, hC⟩
    simp only [nameOf, reduceCtorEq, iff_false]
    rintro rfl
    exact hr.main (mem_append_left _ hf)

theorem nameOf_inj (hr : Ready names R T H O' dec I main) {c d : Option String} {C D : Component} (hC : H.comp c = some C) (hD : H.comp d = some D)
    (h : nameOf main c = nameOf main d) : c = d := by
  by_cases hc : c = none
  · have h2 := (nameOf_main hr hC).2 hc
    rw [h] at h2
    rw [hc, (nameOf_main hr hD).1 h2]
  · by_cases hd : d = none
    · have h2 := (nameOf_main hr hD).2 hd
      rw [← h] at h2
      exact absurd ((nameOf_main hr hC).1 h2) hc
    · obtain ⟨f, rfl⟩ := Option.ne_none_iff_exists'.1 hc
      obtain ⟨g, rfl⟩ := Option.ne_none_iff_exists'.1 hd
      simp only [nameOf] at h
      rw [h]

/-- The components of the program come from those of the object. -/
theorem prog_fn (hr : Ready names R T H O' dec I main) {f : String} {F : Fn} (h : (toProg names dec main A O').fns f = some F) :
    ∃ comp C C', f = nameOf main comp ∧ H.comp comp = some C ∧ O'.comp comp = some C' ∧ DecoComp names H T (R comp) (fun _ => False) C C' ∧
      F = toFn names dec comp.isNone (A comp) C' := by
  have key : ∀ comp C', O'.comp comp = some C' → ∃ C, H.comp comp = some C ∧ DecoComp names H T (R comp) (fun _ => False) C C' := by
    intro comp C' hC'
    cases hC : H.comp comp with
    | none => rw [hr.deco.none comp hC] at hC'; cases hC'
    | some C =>
      obtain ⟨C2, h1, h2⟩ := hr.deco.some comp C hC
      rw [hC'] at h1
      cases h1
      exact ⟨C, rfl, h2⟩
  have h' : (if f = main then (O'.comp none).map (toFn names dec true (A none)) else (O'.fns f).map (toFn names dec false (A (some f)))) = some F := h
  split at h'
  · rename_i hf
    obtain ⟨C', hC', rfl⟩ := Option.map_eq_some_iff.1 h'
    obtain ⟨C, hC, hd⟩ := key none C' hC'
    exact ⟨none, C, C', hf, hC, hC', hd, rfl⟩
  · obtain ⟨C', hC', rfl⟩ := Option.map_eq_some_iff.1 h'
    obtain ⟨C, hC, hd⟩ := key (some f) C' hC'
    exact ⟨some f, C, C', rfl, hC, hC', hd, rfl⟩

/-- The blocks of a component of the program. -/
theorem prog_block (hr : Ready names R T H O' dec I main) {comp : Option String} {C C' : Component} (hC : H.comp comp = some C)
    (hd : DecoComp names H T (R comp) (fun _ => False) C C') {B : Layout.LBlock} (hB : B ∈ (toFn names dec comp.isNone (A comp) C').graph.blocks) :
    ∃ X D s body e, C.body.get B.id = some X ∧ C'.body.get B.id = some { X with instrs := D } ∧ B = toLBlock names { X with instrs := D } ∧
      View names H T (R comp) X s body e ∧ splitInstr names { X with instrs := D } = s ∧
      (toFn names dec comp.isNone (A comp) C').instrs B.id = body.map (toIns dec) ∧
      (toFn names dec comp.isNone (A comp) C').split B.id = s.map (toIns dec) ∧
      B.phis = (phis X).map fun i => { out := i.outs.headD "", args := i.ins } := by
  have hB' : B ∈ C'.body.blocks.map (toLBlock names) := hB
  obtain ⟨B', hmem, rfl⟩ := mem_map.1 hB'
  have hget : C'.body.get B'.id = some B' := get_of_mem hd.ids hmem
  show ∃ X D s body e, C.body.get B'.id = some X ∧ _
  cases hX : C.body.get B'.id with
  | none => rw [hd.none _ hX] at hget; cases hget
  | some X =>
    obtain ⟨D, hD, hdeco⟩ := hd.some _ X hX
    obtain ⟨s, body, e, hview, hs, hbody⟩ := deco_view hr.parts.names (hr.parts.blocks comp C hC _ X hX) hdeco
    have hX' : B' = { X with instrs := D } := by
      rw [hget] at hD
      exact Option.some.inj hD
    refine ⟨X, D, s, body, e, rfl, hD, by rw [hX'], hview, hs, ?_, ?_, ?_⟩
    · have := fn_instrs (names := names) (dec := dec) (m := comp.isNone) (a := A comp) hD
      rw [hs, hbody] at this
      exact this
    · have := fn_split (names := names) (dec := dec) (m := comp.isNone) (a := A comp) hD
      rw [hs] at this
      exact this
    · have hnames : ∀ f ∈ names, f ≠ "PhiFunction" := by
        rintro f hf rfl
        exact hr.parts.names _ hf (by simp)
      have hphis : phis { X with instrs := D } = phis X := deco_phis hnames hdeco
      rw [hX', ← hphis]
      rfl

/-- How a block ends. -/
theorem view_exit (hr : Ready names R T H O' dec I main) {F : Fn} {B : Layout.LBlock} {X : Block} (hok : PartOk R names X) {s : Option Instr} {body : List Instr}
    {e : Program.Exit} {ret : Option String} (hv : View names H T ret X s body e) (hs : F.split B.id = s.map (toIns dec)) (hf : B.fallsTo = X.fallsTo) :
    (toProg names dec main A O').exit F B = e := by
  have hsome : ∀ i : Instr, dec i.op = (i.op, none) → F.split B.id = some (toIns dec i) → (toProg names dec main A O').exit F B =
      (if i.op = "JUMP" then .jump else if i.op = "JUMPI" then .branch else if i.op = "functionReturn" then .ret
       else if ((toProg names dec main A O').fns i.op).isSome then .call i.op else .halt) := by
    intro i hd h
    unfold Prog.exit
    rw [h]
    have : (toIns dec i).op = i.op := by show (dec i.op).1 = _; rw [hd]
    simp only [this]
  have hcall : ∀ (i : Instr) (ft : Nat) (rt : Option Nat), i.op ∈ names → F.split B.id = some (toIns dec (tagCall ft rt i)) →
      (toProg names dec main A O').exit F B = .call i.op := by
    intro i ft rt hi h
    have hname := hr.parts.names _ hi
    rw [hsome (tagCall ft rt i) (hr.known i.op (mem_append_right _ hi)) h]
    obtain ⟨G, hG⟩ := (hr.parts.fns i.op).1 hi
    obtain ⟨G', hG', _⟩ := hr.deco.some (some i.op) G hG
    have hn1 : ¬ i.op = "JUMP" := by rintro h; exact hname (by rw [h]; simp)
    have hn2 : ¬ i.op = "JUMPI" := by rintro h; exact hname (by rw [h]; simp)
    have hn3 : ¬ i.op = "functionReturn" := by rintro h; exact hname (by rw [h]; simp)
    have hp : (toProg names dec main A O').fns i.op = _ := prog_comp (A := A) hr (comp := some i.op) hG hG'
    show (if i.op = "JUMP" then _ else if i.op = "JUMPI" then _ else if i.op = "functionReturn" then _ else _) = _
    rw [if_neg hn1, if_neg hn2, if_neg hn3]
    show (if ((toProg names dec main A O').fns i.op).isSome = true then Exit.call i.op else _) = _
    rw [hp]
    rfl
  cases hv with
  | stop hty hj hf' hc hq =>
    unfold Prog.exit
    rw [hs, hf, hf']
    rfl
  | halt l i hty hj hf hc hl hi =>
    rw [hsome i (hr.known i.op (mem_append_left _ (mem_append_right _ hi))) hs]
    have hn1 : ¬ i.op = "JUMP" := by rintro h; rw [h] at hi; simp [Lower.haltOps] at hi
    have hn2 : ¬ i.op = "JUMPI" := by rintro h; rw [h] at hi; simp [Lower.haltOps] at hi
    have hn3 : ¬ i.op = "functionReturn" := by rintro h; rw [h] at hi; simp [Lower.haltOps] at hi
    have hnone : (toProg names dec main A O').fns i.op = none := prog_none hr (hc i (by rw [hl]; simp)) (by
      rintro h
      exact hr.main (mem_append_right _ (h ▸ hi)))
    rw [if_neg hn1, if_neg hn2, if_neg hn3, hnone]
    rfl
  | jump y t hty hj hf ht hc => rw [hsome ⟨"JUMP", [toString t], []⟩ (hr.known "JUMP" (by simp)) hs]; rfl
  | branch y z c t hty hj hf hcond ht hc => rw [hsome ⟨"JUMPI", [toString t, c], []⟩ (hr.known "JUMPI" (by simp)) hs]; rfl
  | ret o l i hty hj hf hl hi ho hc =>
    rw [hsome { i with ins := o :: i.ins } (hr.known i.op (by simp [hi])) hs]
    show (if i.op = "JUMP" then _ else if i.op = "JUMPI" then _ else if i.op = "functionReturn" then _ else _) = _
    rw [hi]
    rfl
  | call l i n ft rt ts hts hty hl hi hc hj hf hrt hft => exact hcall i ft (some rt) hi hs
  | tail l i ft hty hl hi hc hj hf hft => exact hcall i ft none hi hs

/-! ### Tags -/

open Classical in
/-- The block that a value stands for. -/
noncomputable def destOf (main : String) (H : Obj) (T : TagDict) (val : Nat → V) (v : V) : Option (String × String) :=
  if h : ∃ p : String × String, ∃ comp C X t, H.comp comp = some C ∧ C.body.get p.2 = some X ∧ tagOf T p.2 = some t ∧ val t = v ∧ p.1 = nameOf main comp
  then some h.choose else none

theorem dest_some {v : V} {p : String × String} (h : destOf main H T val v = some p) :
    ∃ comp C X t, H.comp comp = some C ∧ C.body.get p.2 = some X ∧ tagOf T p.2 = some t ∧ val t = v ∧ p.1 = nameOf main comp := by
  unfold destOf at h
  split at h
  · rename_i h1
    cases h
    exact h1.choose_spec
  · cases h

theorem dest_eq (hp : PartsOk names R H) (hg : GoodTags T) (hval : ∀ t t', val t = val t' → t = t') {comp : Option String} {C : Component} {x : String}
    {X : Block} {t : Nat} (hC : H.comp comp = some C) (hX : C.body.get x = some X) (ht : tagOf T x = some t) :
    destOf main H T val (val t) = some (nameOf main comp, x) := by
  have hex : ∃ p : String × String, ∃ comp C X t', H.comp comp = some C ∧ C.body.get p.2 = some X ∧ tagOf T p.2 = some t' ∧ val t' = val t ∧ p.1 = nameOf main comp :=
    ⟨(nameOf main comp, x), comp, C, X, t, hC, hX, ht, rfl, rfl⟩
  have h0 : destOf main H T val (val t) = some hex.choose := by unfold destOf; rw [dif_pos hex]
  obtain ⟨comp2, C2, X2, t2, h1, h2, h3, h4, h5⟩ := hex.choose_spec
  rw [hval _ _ h4] at h3
  have hx := tags_injective hg h3 ht
  rw [hx] at h2
  have := (hp.blockNames comp2 comp C2 C h1 hC x x X2 X h2 hX [] (by unfold Halves; simp) (by simp)).2
  subst this
  rw [h0]
  congr 1
  exact Prod.ext h5 hx

/-! ### The components are as the layout generation expects them -/

theorem dec_pushTag (hr : Ready names R T H O' dec I main) (t : Nat) : (toIns dec (pushTag t)).op = "PUSH [tag]" := by
  show (dec "PUSH [tag]").1 = _
  rw [hr.known "PUSH [tag]" (by simp)]

theorem pushes_tag (hv : Inv names R f2t O (fun _ _ => False) H O' T) (hr : Ready names R T H O' dec I main) (hval : TagMeaning I val) {body : List Instr}
    {t : Nat} (ht : pushTag t ∈ body) {comp : Option String} {C : Component} {x : String} {X : Block} (hC : H.comp comp = some C)
    (hX : C.body.get x = some X) (htag : tagOf T x = some t) :
    PushesTag I (destOf main H T val) (body.map (toIns dec)) (toString t) (nameOf main comp, x) :=
  ⟨⟨_, mem_map.2 ⟨_, ht, rfl⟩, dec_pushTag hr t, rfl, rfl⟩, val t, fun w => by rw [hval.push], dest_eq hv.parts hv.tags hval.inj hC hX htag⟩

/-- The split instruction: where its arguments and results come from. -/
theorem view_split (hv : Inv names R f2t O (fun _ _ => False) H O' T) (he : Emittable dec I arity names O) {comp : Option String} {C : Component}
    (hC : H.comp comp = some C) {x : String} {X : Block} (hX : C.body.get x = some X) (hfine : FineComp names C) {s : Option Instr} {body : List Instr}
    {e : Program.Exit} (hview : View names H T (R comp) X s body e) :
    ∀ j, s = some j → (∀ v ∈ j.ins, Neat v ∨ (∃ t : Nat, v = toString t) ∨ ∃ f, v = "out_" ++ f) ∧
      ((j.outs = [] ∧ ∀ g, e ≠ .call g) ∨ ∃ l i, X.instrs = l ++ [i] ∧ i.op ∈ names ∧ j.outs = i.outs ∧ e = .call i.op) := by
  have neat := fun i hi => hfine.1.neat x X hX i hi
  have inCode : ∀ (l : List Instr) (i : Instr) (o : String), X.instrs = l ++ [i] → i.op = o → o ≠ "PhiFunction" → i ∈ code X := by
    intro l i o hl hi ho
    exact mem_filter.2 ⟨by rw [hl]; simp, by rw [not_phi hi ho]; rfl⟩
  intro j hj
  cases hview with
  | stop => cases hj
  | halt l i hty hj' hf hc hl hi =>
    obtain rfl := Option.some.inj hj
    refine ⟨fun v hv => Or.inl (neat _ (by rw [hl]; simp) v (mem_append_left _ hv)), Or.inl ⟨?_, by simp⟩⟩
    obtain ⟨C0, x0, X0, h1, h2, h3⟩ := hv.source comp C x X _ hC hX (inCode l _ _ hl rfl (by rintro h; rw [h] at hi; simp [Lower.haltOps] at hi))
    exact (he.halts comp C0 x0 X0 _ h1 h2 h3 hi).1
  | jump y t hty hj' hf ht hc =>
    cases hj
    exact ⟨fun v hv => Or.inr (Or.inl ⟨t, by simpa using hv⟩), Or.inl ⟨rfl, by simp⟩⟩
  | branch y z c t hty hj' hf hcond ht hc =>
    cases hj
    refine ⟨fun v hv => ?_, Or.inl ⟨rfl, by simp⟩⟩
    simp only [mem_cons, not_mem_nil, or_false] at hv
    rcases hv with rfl | rfl
    · exact Or.inr (Or.inl ⟨t, rfl⟩)
    · exact Or.inl (hfine.1.neatCond x X hX v hcond)
  | ret o l i hty hj' hf hl hi ho hc =>
    cases hj
    refine ⟨fun v hv' => ?_, Or.inl ⟨?_, by simp⟩⟩
    · simp only [mem_cons] at hv'
      rcases hv' with rfl | hv'
      · right; right
        cases comp with
        | none => rw [hv.parts.ret.1] at ho; cases ho
        | some f =>
          rcases hv.parts.ret.2 f with h | h
          · rw [h] at ho; cases ho
          · rw [h] at ho; exact ⟨f, (Option.some.inj ho).symm⟩
      · exact Or.inl (neat i (by rw [hl]; simp) v (mem_append_left _ hv'))
    · obtain ⟨C0, x0, X0, h1, h2, h3⟩ := hv.source comp C x X i hC hX (inCode l i _ hl hi (by decide))
      exact he.returns comp C0 x0 X0 i h1 h2 h3 hi
  | call l i n ft rt ts hts hty hl hi hc hj' hf hrt hft =>
    cases hj
    refine ⟨fun v hv => ?_, Or.inr ⟨l, i, hl, hi, rfl, rfl⟩⟩
    have hv' : v ∈ toString ft :: i.ins ++ [toString rt] := hv
    simp only [cons_append, mem_cons, mem_append, not_mem_nil, or_false] at hv'
    rcases hv' with rfl | hv' | rfl
    · exact Or.inr (Or.inl ⟨ft, rfl⟩)
    · exact Or.inl (neat i (by rw [hl]; simp) v (mem_append_left _ hv'))
    · exact Or.inr (Or.inl ⟨rt, rfl⟩)
  | tail l i ft hty hl hi hc hj' hf hft =>
    cases hj
    refine ⟨fun v hv => ?_, Or.inr ⟨l, i, hl, hi, rfl, rfl⟩⟩
    have hv' : v ∈ toString ft :: i.ins ++ [] := hv
    simp only [append_nil, mem_cons] at hv'
    rcases hv' with rfl | hv'
    · exact Or.inr (Or.inl ⟨ft, rfl⟩)
    · exact Or.inl (neat i (by rw [hl]; simp) v (mem_append_left _ hv'))

/-- The tag of a function and the tag of the place to return to are different. -/
theorem tags_differ (hv : Inv names R f2t O (fun _ _ => False) H O' T) (hF : ∀ c C, H.comp c = some C → FineComp names C) {comp : Option String}
    {C : Component} (hC : H.comp comp = some C) {x : String} {X : Block} (hX : C.body.get x = some X) :
    ∀ f n ft rt, X.jumpType = "sub_block" → X.fallsTo = some n → tagOf T n = some rt → FnTag H T f ft → ft ≠ rt := by
  rintro f n ft rt hty hf hrt ⟨G, s, hG, hs, hft⟩ rfl
  have := tags_injective hv.tags hft hrt
  subst this
  obtain ⟨Z, hZ⟩ := (hv.parts.sane comp C hC).coherent.targets x X hX s (mem_succs.2 (Or.inr hf))
  obtain ⟨s', S, hs', hS⟩ := (hv.parts.sane (some f) G hG).start
  rw [hs] at hs'
  cases hs'
  have := (hv.parts.blockNames (some f) comp G C hG hC s s S Z hS hZ [] (by unfold Halves; simp) (by simp)).2
  subst this
  have hG' : H.comp (some f) = some G := hG
  rw [hC] at hG'
  cases hG'
  obtain rfl : S = Z := Option.some.inj (hS.symm.trans hZ)
  have h1 := ((hF _ C hC).1.entry s S hs hS).1
  have h2 := (hF _ C hC).1.chain x X s S hX hty hf hS
  rw [h1] at h2
  cases h2

theorem mem_tagged {pre post : List Nat} {own : List Instr} {j : Instr} (h : j ∈ pre.map pushTag ++ own ++ post.map pushTag) :
    (∃ t, j = pushTag t) ∨ j ∈ own := by
  simp only [mem_append, mem_map] at h
  rcases h with (⟨t, _, rfl⟩ | h) | ⟨t, _, rfl⟩
  · exact Or.inl ⟨t, rfl⟩
  · exact Or.inr h
  · exact Or.inl ⟨t, rfl⟩

/-- No name is assigned twice. -/
theorem tagged_nodup {pre post : List Nat} {own : List Instr} (hn : (pre ++ post).Nodup) (ho : (own.flatMap (·.outs)).Nodup)
    (hneat : ∀ i ∈ own, ∀ v ∈ i.outs, Neat v) : ((pre.map pushTag ++ own ++ post.map pushTag).flatMap (·.outs)).Nodup := by
  have e : ∀ l : List Nat, (l.map pushTag).flatMap (·.outs) = l.map toString := by
    intro l
    induction l with
    | nil => rfl
    | cons a l ih => rw [map_cons, flatMap_cons, ih]; rfl
  have d : ∀ (l : List Nat) (x : String), x ∈ own.flatMap (·.outs) → x ∉ l.map toString := by
    intro l x hx hl
    obtain ⟨i, hi, hxi⟩ := mem_flatMap.1 hx
    obtain ⟨t, _, rfl⟩ := mem_map.1 hl
    exact neat_ne_tag (hneat i hi _ hxi) t rfl
  have n : ∀ l : List Nat, l.Nodup → (l.map toString).Nodup := fun l hl => hl.map fun _ _ h => tag_inj h
  rw [flatMap_append, flatMap_append, e, e]
  obtain ⟨h1, h2, h3⟩ := nodup_append.1 hn
  rw [nodup_append, nodup_append]
  refine ⟨⟨n _ h1, ho, ?_⟩, n _ h2, ?_⟩
  · rintro a ha b hb rfl
    exact d pre a hb ha
  · rintro a ha b hb rfl
    rcases mem_append.1 ha with ha | ha
    · obtain ⟨t, ht, rfl⟩ := mem_map.1 ha
      obtain ⟨t', ht', h⟩ := mem_map.1 hb
      rw [tag_inj h] at ht'
      exact h3 t ht t ht' rfl
    · exact d post a ha hb

theorem inputs_eq {comp : Option String} {C C' : Component} (hd : DecoComp names H T (R comp) (fun _ => False) C C') :
    (toFn names dec comp.isNone (A comp) C').graph.inputs = C.args.reverse ++ (R comp).toList := by
  show C'.args.reverse = _
  rw [hd.args, reverse_append]
  cases R comp <;> rfl

/-- The components of the program are as the layout generation expects them. What is left to be checked: no block precedes two joins, no values are
left behind in functions, and nothing is live where a function returns. -/
theorem fn_ok (hv : Inv names R f2t O (fun _ _ => False) H O' T) (hr : Ready names R T H O' dec I main)
    (hF : ∀ c C, H.comp c = some C → FineComp names C) (he : Emittable dec I arity names O) (hval : TagMeaning I val) {f : String} {F : Fn}
    (h : (toProg names dec main A O').fns f = some F) (one : Layout.OneJoin F.graph) (junk : f ≠ main → Layout.NoJunk F.graph)
    (live : ∀ B ∈ F.graph.blocks, (toProg names dec main A O').exit F B = .ret → F.graph.liveOut B.id = []) :
    FnOk (toProg names dec main A O') I (destOf main H T val) f F := by
  obtain ⟨comp, C, C', rfl, hC, hC', hd, rfl⟩ := prog_fn hr h
  have hfine := hF comp C hC
  have hsane := hr.parts.sane comp C hC
  have hinputs := inputs_eq (dec := dec) (A := A) hd
  -- blocks of the component
  have hblock : ∀ x X, C.body.get x = some X → ∃ B ∈ (toFn names dec comp.isNone (A comp) C').graph.blocks, B.id = x := by
    intro x X hX
    obtain ⟨D, hD, _⟩ := hd.some x X hX
    exact ⟨_, mem_map.2 ⟨_, get_mem hD, rfl⟩, get_id (b := { X with instrs := D }) hD⟩
  have view := fun (B : Layout.LBlock) (hB : B ∈ (toFn names dec comp.isNone (A comp) C').graph.blocks) => prog_block (A := A) hr hC hd hB
  have part := fun x X (hX : C.body.get x = some X) => hr.parts.blocks comp C hC x X hX
  -- names in bodies
  have body : ∀ B ∈ (toFn names dec comp.isNone (A comp) C').graph.blocks, ∀ i ∈ (toFn names dec comp.isNone (A comp) C').instrs B.id,
      (∃ t : Nat, i.inArgs = [] ∧ i.outArgs = [toString t]) ∨
      (∀ v ∈ i.inArgs, Neat v) ∧ ∀ v ∈ i.outArgs, Neat v ∧ Cfg.isConst v = false := by
    intro B hB i hi
    obtain ⟨X, D, s, body, e, hX, hD, hBe, hview, hs, hins, hsp, hph⟩ := view B hB
    rw [hins] at hi
    obtain ⟨j, hj, rfl⟩ := mem_map.1 hi
    obtain ⟨pre, own, post, rfl, hsub, hnd, hown⟩ := view_body (part _ X hX) hview (tags_differ hv hF hC hX)
    rcases mem_tagged hj with ⟨t, rfl⟩ | hj
    · exact Or.inl ⟨t, rfl, rfl⟩
    · have hmem : j ∈ X.instrs := (mem_filter.1 (hsub.subset hj)).1
      exact Or.inr ⟨fun v hv => hfine.1.neat _ X hX j hmem v (mem_append_left _ hv), fun v hv =>
        ⟨hfine.1.neat _ X hX j hmem v (mem_append_right _ hv), (part _ X hX).vars j hmem v hv⟩⟩
  have outs : ∀ B ∈ (toFn names dec comp.isNone (A comp) C').graph.blocks, ∀ X, C.body.get B.id = some X →
      ((toFn names dec comp.isNone (A comp) C').exitOuts B = [] ∧ (∀ g, (toProg names dec main A O').exit (toFn names dec comp.isNone (A comp) C') B ≠ .call g)) ∨
      ∃ l i, X.instrs = l ++ [i] ∧ i.op ∈ names ∧ (toFn names dec comp.isNone (A comp) C').exitOuts B = i.outs ∧
        (toProg names dec main A O').exit (toFn names dec comp.isNone (A comp) C') B = .call i.op := by
    intro B hB X hX
    obtain ⟨X', D, s, body, e, hX', hD, hBe, hview, hs, hins, hsp, hph⟩ := view B hB
    rw [hX] at hX'
    cases hX'
    have hex := view_exit (A := A) (F := toFn names dec comp.isNone (A comp) C') (B := B) hr (part _ X hX) hview hsp (by rw [hBe]; rfl)
    rw [hex]
    unfold Fn.exitOuts
    rw [hsp]
    cases hse : s with
    | none =>
      left
      refine ⟨rfl, ?_⟩
      subst hse
      cases hview
      simp
    | some j => exact (view_split hv he hC hX hfine hview j hse).2
  have args : ∀ B ∈ (toFn names dec comp.isNone (A comp) C').graph.blocks, ∀ v ∈ (toFn names dec comp.isNone (A comp) C').exitArgs B, ¬ Padding v := by
    intro B hB v hvm
    obtain ⟨X, D, s, body, e, hX, hD, hBe, hview, hs, hins, hsp, hph⟩ := view B hB
    unfold Fn.exitArgs at hvm
    rw [hsp] at hvm
    cases hse : s with
    | none => rw [hse] at hvm; cases hvm
    | some j =>
      rw [hse] at hvm
      rcases (view_split hv he hC hX hfine hview j hse).1 v hvm with h | ⟨t, rfl⟩ | ⟨g, rfl⟩
      · exact (neat_fresh h).1
      · exact (tag_fresh t).1
      · exact (out_proper g).2
  have ret : ∀ B ∈ (toFn names dec comp.isNone (A comp) C').graph.blocks,
      (toProg names dec main A O').exit (toFn names dec comp.isNone (A comp) C') B = .ret → ∃ (X : Block) (D : List Instr) (o : String) (vals : List String), B = toLBlock names { X with instrs := D } ∧
        X.jumpType = "FunctionReturn" ∧ X.jumpTo = none ∧ X.fallsTo = none ∧ R comp = some o ∧
        (toFn names dec comp.isNone (A comp) C').exitArgs B = o :: vals := by
    intro B hB hret
    obtain ⟨X, D, s, body, e, hX, hD, hBe, hview, hs, hins, hsp, hph⟩ := view B hB
    have hex := view_exit (A := A) (F := toFn names dec comp.isNone (A comp) C') (B := B) hr (part _ X hX) hview hsp (by rw [hBe]; rfl)
    rw [hret] at hex
    subst hex
    have hargs : (toFn names dec comp.isNone (A comp) C').exitArgs B = ((s.map (toIns dec)).map (·.inArgs)).getD [] := by unfold Fn.exitArgs; rw [hsp]
    cases hview with
    | ret o l i hty hj hf hl hi ho hc => exact ⟨X, D, o, i.ins, hBe, hty, hj, hf, ho, hargs⟩
  refine { wf := ?_, one := one, start := ?_, junk := junk, inputs := ?_, final := ?_, outs := ?_, callJoin := ?_, ret := ?_, insOuts := ?_, outsNodup := ?_,
           inputsNodup := ?_, properIns := ?_, properOuts := ?_, properPhi := ?_, properInputs := ?_, namesIns := ?_, namesArgs := args, namesPhi := ?_,
           jumps := ?_, branches := ?_, calls := ?_, returns := ?_, keeps := ?_ }
  · -- well-formed
    refine { ids := ?_, edges := ?_, known := ?_, once := ?_, entries := ?_, phiJoin := ?_, phiOuts := ?_, phiArgs := ?_ }
    · show ((C'.body.blocks.map (toLBlock names)).map (·.id)).Nodup
      rw [map_map]
      exact hd.ids
    · intro B hB S hS
      obtain ⟨X, D, s, body, e, hX, hD, hBe, -⟩ := view B hB
      obtain ⟨Y, E, s', body', e', hY, hE, hSe, -⟩ := view S hS
      have := hsane.coherent.edges B.id S.id X Y hX hY
      have h1 : B.succs = X.succs := by rw [hBe]; rfl
      have h2 : S.comesFrom = Y.comesFrom := by rw [hSe]; rfl
      rw [h1, h2]
      exact this.symm
    · intro S hS p hp
      obtain ⟨Y, E, s', body', e', hY, hE, hSe, -⟩ := view S hS
      have h2 : S.comesFrom = Y.comesFrom := by rw [hSe]; rfl
      rw [h2] at hp
      obtain ⟨P, hP⟩ := hsane.coherent.preds S.id Y hY p hp
      exact hblock p P hP
    · intro S hS
      obtain ⟨Y, E, s', body', e', hY, hE, hSe, -⟩ := view S hS
      have h2 : S.comesFrom = Y.comesFrom := by rw [hSe]; rfl
      rw [h2]
      exact hsane.coherent.once S.id Y hY
    · intro S hS
      obtain ⟨Y, E, s', body', e', hY, hE, hSe, -⟩ := view S hS
      have h2 : S.comesFrom = Y.comesFrom := by rw [hSe]; rfl
      have h3 : S.entries = Y.entries := by rw [hSe]; rfl
      rw [h2, h3]
      exact hfine.1.exact S.id Y hY
    · intro S hS hne
      obtain ⟨Y, E, s', body', e', hY, hE, hSe, _, _, _, _, hph⟩ := view S hS
      have h2 : S.comesFrom = Y.comesFrom := by rw [hSe]; rfl
      rw [h2]
      refine hfine.1.joins S.id Y hY ?_
      rintro h0
      rw [hph, h0] at hne
      exact hne rfl
    · intro S hS
      obtain ⟨Y, E, s', body', e', hY, hE, hSe, _, _, _, _, hph⟩ := view S hS
      rw [hph, map_map]
      have hok := part _ Y hY
      have : (phis Y).map ((fun p : Layout.Phi => p.out) ∘ fun i => { out := i.outs.headD "", args := i.ins }) = (phis Y).flatMap (·.outs) := by
        have hs : ∀ i ∈ phis Y, ∃ x, i.outs = [x] := fun i hi => (hok.phiShape i hi).2
        generalize phis Y = l at hs
        induction l with
        | nil => rfl
        | cons i l ih =>
          obtain ⟨x, hx⟩ := hs i mem_cons_self
          rw [map_cons, flatMap_cons, ih fun j hj => hs j (mem_cons_of_mem _ hj)]
          simp [hx]
      rw [this]
      exact hok.phiOuts
    · intro S hS p hp
      obtain ⟨Y, E, s', body', e', hY, hE, hSe, _, _, _, _, hph⟩ := view S hS
      have hok := part _ Y hY
      rw [hph] at hp
      obtain ⟨i, hi, rfl⟩ := mem_map.1 hp
      have hne : phis Y ≠ [] := by rintro h0; rw [h0] at hi; cases hi
      constructor
      · simp only
        rw [(hok.phiShape i hi).1]
        have h2 : S.comesFrom = Y.comesFrom := by rw [hSe]; rfl
        have h3 : S.entries = Y.entries := by rw [hSe]; rfl
        unfold Layout.LBlock.preds
        rw [h2, h3]
        have hj := hfine.1.joins S.id Y hY hne
        have hE := hok.phiEntries hne
        split
        · rename_i h0
          exfalso
          cases hcf : Y.comesFrom with
          | nil => rw [hcf] at hj; simp at hj
          | cons q qs =>
            have := hE q (by rw [hcf]; simp)
            rw [h0] at this
            cases this
        · rfl
      · intro hb
        exact (hok.plain i (mem_filter.1 hi).1 "bottom" (mem_append_left _ hb)).2.2 rfl
  · -- the start
    obtain ⟨s, S, hs, hS⟩ := hsane.start
    obtain ⟨B, hB, hid⟩ := hblock s S hS
    obtain ⟨X, D, s', body', e', hX, hE, hSe, -⟩ := view B hB
    rw [hid, hS] at hX
    cases hX
    refine ⟨B, hB, ?_, ?_⟩
    · rw [hid]
      show s = C'.body.start.getD ""
      rw [hd.start, hs]; rfl
    · rw [hSe]
      exact (hfine.1.entry s S hs hS).1
  · -- inputs of the main code
    intro hm
    have := (nameOf_main hr hC).1 hm
    subst this
    rw [hinputs, hr.parts.ret.1]
    have : C.args = [] := by
      have : H.comp none = some ⟨[], H.main⟩ := rfl
      rw [this] at hC
      cases hC
      rfl
    rw [this]
    rfl
  · intro B hB
    obtain ⟨X, D, s, body, e, hX, hD, hBe, hview, hs, hins, hsp, hph⟩ := view B hB
    unfold Fn.exitOuts
    rw [hsp]
    have : B.finalElems = ((splitInstr names { X with instrs := D }).map (·.outs)).getD [] := by rw [hBe]; rfl
    rw [this, hs]
    cases s <;> rfl
  · intro B hB hno
    obtain ⟨X, D, s, body, e, hX, -⟩ := view B hB
    rcases outs B hB X hX with h1 | ⟨l, i, _, _, _, h1⟩
    · exact h1.1
    · exact absurd h1 (hno _)
  · intro B hB hne J hJ hlen hmem
    obtain ⟨X, D, s, body, e, hX, hD, hBe, hview, hs, hins, hsp, hph⟩ := view B hB
    obtain ⟨Y, E, s', body', e', hY, hE, hJe, -⟩ := view J hJ
    have h2 : J.comesFrom = Y.comesFrom := by rw [hJe]; rfl
    rw [h2] at hlen hmem
    have hsucc := (hsane.coherent.edges B.id J.id X Y hX hY).1 hmem
    rcases outs B hB X hX with h1 | ⟨l, i, hl, hi, h1, hex⟩
    · exact hne h1.1
    · have hex' := view_exit (A := A) (F := toFn names dec comp.isNone (A comp) C') (B := B) hr (part _ X hX) hview hsp (by rw [hBe]; rfl)
      rw [hex] at hex'
      generalize hg : Program.Exit.call i.op = g at hex'
      subst hex'
      cases hview with
      | stop => cases hg
      | halt => cases hg
      | jump => cases hg
      | branch => cases hg
      | ret => cases hg
      | call l' i' n ft rt ts hts hty hl' hi' hc hj hf hrt hft =>
        have : J.id = n := by
          unfold Block.succs at hsucc
          rw [hj, hf] at hsucc
          simpa using hsucc
        subst this
        rw [hfine.1.chain B.id X J.id Y hX hty hf hY] at hlen
        simp at hlen
      | tail l' i' ft hty hl' hi' hc hj hf hft =>
        unfold Block.succs at hsucc
        rw [hj, hf] at hsucc
        simp at hsucc
  · intro B hB hret
    obtain ⟨X, D, o, vals, hBe, hty, hj, hf, ho, hargs⟩ := ret B hB hret
    refine ⟨?_, ?_, live B hB hret, ?_, ?_⟩
    · intro hm
      have := (nameOf_main hr hC).1 hm
      subst this
      rw [hr.parts.ret.1] at ho
      cases ho
    · have : B.succs = X.succs := by rw [hBe]; rfl
      rw [this]
      unfold Block.succs
      rw [hj, hf]; rfl
    · have : B.jumpType = X.jumpType := by rw [hBe]; rfl
      rw [this, hty]
      decide
    · have : B.previousType = "" := by
        rw [hBe]
        show (if X.jumpType = "sub_block" then _ else _) = _
        rw [hty]
        rfl
      rw [this]
      decide
  · intro B hB
    obtain ⟨X, D, s, body, e, hX, hD, hBe, hview, hs, hins, hsp, hph⟩ := view B hB
    rw [hins]
    obtain ⟨pre, own, post, rfl, hsub, hnd, hown⟩ := view_body (part _ X hX) hview (tags_differ hv hF hC hX)
    have e1 : ∀ l : List Instr, (l.map (toIns dec)).flatMap (·.outArgs) = l.flatMap (·.outs) := by
      intro l
      induction l with
      | nil => rfl
      | cons a l ih => rw [map_cons, flatMap_cons, flatMap_cons, ih]; rfl
    rw [e1]
    have hsub' : own.Sublist X.instrs := hsub.trans filter_sublist
    refine tagged_nodup hnd ?_ fun i hi v hv' => hfine.1.neat _ X hX i (hsub'.subset hi) v (mem_append_right _ hv')
    exact (hfine.1.defs _ X hX).sublist (hsub'.flatMap _)
  · intro B hB
    obtain ⟨X, D, s, body, e, hX, -⟩ := view B hB
    rcases outs B hB X hX with h1 | ⟨l, i, hl, hi, h1, -⟩
    · rw [h1.1]; exact nodup_nil
    · rw [h1]
      have := hfine.1.defs _ X hX
      rw [hl, flatMap_append] at this
      simpa using (nodup_append.1 this).2.1
  · rw [hinputs]
    rw [nodup_append]
    refine ⟨nodup_reverse.2 hfine.2.1, by cases R comp <;> simp, ?_⟩
    rintro a ha b hb rfl
    have hN := hfine.2.2.1 a (mem_reverse.1 ha)
    cases comp with
    | none => rw [hr.parts.ret.1] at hb; cases hb
    | some g =>
      rcases hr.parts.ret.2 g with h' | h'
      · rw [h'] at hb; cases hb
      · rw [h'] at hb
        exact neat_ne_out hN g (by simpa using hb)
  · intro B hB i hi v hv'
    rcases body B hB i hi with ⟨t, _, h2⟩ | ⟨_, h2⟩
    · rw [h2, mem_singleton] at hv'
      rw [hv']
      exact tag_proper t
    · exact neat_proper (h2 v hv').1 (h2 v hv').2
  · intro B hB v hv'
    obtain ⟨X, D, s, body, e, hX, -⟩ := view B hB
    rcases outs B hB X hX with h1 | ⟨l, i, hl, hi, h1, -⟩
    · rw [h1.1] at hv'; cases hv'
    · rw [h1] at hv'
      have hm : i ∈ X.instrs := by rw [hl]; simp
      exact neat_proper (hfine.1.neat _ X hX i hm v (mem_append_right _ hv')) ((part _ X hX).vars i hm v hv')
  · intro B hB p hp
    obtain ⟨X, D, s, body, e, hX, hD, hBe, hview, hs, hins, hsp, hph⟩ := view B hB
    rw [hph] at hp
    obtain ⟨i, hi, rfl⟩ := mem_map.1 hp
    obtain ⟨_, x, hx⟩ := (part _ X hX).phiShape i hi
    have hm : i ∈ X.instrs := (mem_filter.1 hi).1
    simp only [hx, headD_cons]
    exact neat_proper (hfine.1.neat _ X hX i hm x (by rw [hx]; simp)) ((part _ X hX).vars i hm x (by rw [hx]; simp))
  · intro v hv'
    rw [hinputs] at hv'
    rcases mem_append.1 hv' with hva | hv'
    · cases comp with
      | none =>
        have : H.comp none = some ⟨[], H.main⟩ := rfl
        rw [this] at hC
        cases hC
        cases hva
      | some g => exact neat_proper (hfine.2.2.1 v (mem_reverse.1 hva)) (hr.parts.args g C hC v (mem_reverse.1 hva)).2
    · cases comp with
      | none => rw [hr.parts.ret.1] at hv'; cases hv'
      | some g =>
        rcases hr.parts.ret.2 g with h' | h'
        · rw [h'] at hv'; cases hv'
        · rw [h'] at hv'
          have : v = "out_" ++ g := by simpa using hv'
          rw [this]
          exact out_proper g
  · intro B hB i hi v hv'
    rcases body B hB i hi with ⟨t, h1, _⟩ | ⟨h1, _⟩
    · rw [h1] at hv'; cases hv'
    · exact (neat_fresh (h1 v hv')).1
  · intro B hB p hp v hv'
    obtain ⟨X, D, s, body, e, hX, hD, hBe, hview, hs, hins, hsp, hph⟩ := view B hB
    rw [hph] at hp
    obtain ⟨i, hi, rfl⟩ := mem_map.1 hp
    exact (neat_fresh (hfine.1.neat _ X hX i (mem_filter.1 hi).1 v (mem_append_left _ hv'))).1
  · -- jumps
    intro B hB hex
    obtain ⟨X, D, s, body, e, hX, hD, hBe, hview, hs, hins, hsp, hph⟩ := view B hB
    have hex' := view_exit (A := A) (F := toFn names dec comp.isNone (A comp) C') (B := B) hr (part _ X hX) hview hsp (by rw [hBe]; rfl)
    rw [hex] at hex'
    subst hex'
    have hargs : (toFn names dec comp.isNone (A comp) C').exitArgs B = ((s.map (toIns dec)).map (·.inArgs)).getD [] := by unfold Fn.exitArgs; rw [hsp]
    cases hview with
    | jump y t hty hj hf ht hc =>
      obtain ⟨Y, hY⟩ := hsane.coherent.targets B.id X hX y (mem_succs.2 (Or.inl hj))
      refine ⟨toString t, y, hargs, by rw [hBe]; exact hj, ?_⟩
      rw [hins]
      exact pushes_tag hv hr hval (by simp) hC hY ht
  · -- branches
    intro B hB hex
    obtain ⟨X, D, s, body, e, hX, hD, hBe, hview, hs, hins, hsp, hph⟩ := view B hB
    have hex' := view_exit (A := A) (F := toFn names dec comp.isNone (A comp) C') (B := B) hr (part _ X hX) hview hsp (by rw [hBe]; rfl)
    rw [hex] at hex'
    subst hex'
    have hargs : (toFn names dec comp.isNone (A comp) C').exitArgs B = ((s.map (toIns dec)).map (·.inArgs)).getD [] := by unfold Fn.exitArgs; rw [hsp]
    cases hview with
    | branch y z c t hty hj hf hcond ht hc =>
      obtain ⟨Y, hY⟩ := hsane.coherent.targets B.id X hX y (mem_succs.2 (Or.inl hj))
      refine ⟨toString t, c, y, hargs, by rw [hBe]; exact hj, ?_⟩
      rw [hins]
      exact pushes_tag hv hr hval (by simp) hC hY ht
  · -- calls
    intro B hB g G hex hG
    obtain ⟨X, D, s, body, e, hX, hD, hBe, hview, hs, hins, hsp, hph⟩ := view B hB
    have hex' := view_exit (A := A) (F := toFn names dec comp.isNone (A comp) C') (B := B) hr (part _ X hX) hview hsp (by rw [hBe]; rfl)
    rw [hex] at hex'
    subst hex'
    have hargs : (toFn names dec comp.isNone (A comp) C').exitArgs B = ((s.map (toIns dec)).map (·.inArgs)).getD [] := by unfold Fn.exitArgs; rw [hsp]
    have callee : ∀ {g : String} {ft : Nat}, g ∈ names → (toProg names dec main A O').fns g = some G → FnTag H T g ft → g ≠ main ∧
        ∃ K Z, H.comp (some g) = some K ∧ K.body.get G.graph.start = some Z ∧ tagOf T G.graph.start = some ft := by
      rintro g ft hg hG ⟨K, z, hK, hz, hft⟩
      refine ⟨?_, ?_⟩
      · rintro rfl
        exact hr.main (mem_append_left _ hg)
      · obtain ⟨K', hK', hdK⟩ := hr.deco.some (some g) K hK
        have hp : (toProg names dec main A O').fns g = _ := prog_comp (A := A) hr (comp := some g) hK hK'
        rw [hG] at hp
        cases hp
        obtain ⟨z', Z, hz', hZ⟩ := (hr.parts.sane (some g) K hK).start
        rw [hz] at hz'
        cases hz'
        have : (toFn names dec (some g).isNone (A (some g)) K').graph.start = z := by
          show K'.body.start.getD "" = z
          rw [hdK.start, hz]; rfl
        rw [this]
        exact ⟨K, Z, hK, hZ, hft⟩
    cases hview with
    | call l i n ft rt ts hts hty hl hi hc hj hf hrt hft =>
      obtain ⟨h1, K, Z, hK, hZ, ht⟩ := callee hi hG hft
      obtain ⟨Y, hY⟩ := hsane.coherent.targets B.id X hX n (mem_succs.2 (Or.inr hf))
      refine ⟨h1, ⟨toString ft, i.ins ++ [toString rt], hargs, ?_⟩, fun _ n' hn' => ⟨toString rt, ?_, ?_⟩⟩
      · rw [hins]
        exact pushes_tag hv hr hval (by rcases hts with rfl | rfl <;> simp) hK hZ ht
      · rw [hargs]
        show (toString ft :: i.ins ++ [toString rt]).getLast? = _
        rw [getLast?_concat]
      · have : n' = n := by
          rw [hBe] at hn'
          have hn'' : X.fallsTo = some n' := hn'
          rw [hf] at hn''
          exact (Option.some.inj hn'').symm
        subst this
        rw [hins]
        exact pushes_tag hv hr hval (by rcases hts with rfl | rfl <;> simp) hC hY hrt
    | tail l i ft hty hl hi hc hj hf hft =>
      obtain ⟨h1, K, Z, hK, hZ, ht⟩ := callee hi hG hft
      refine ⟨h1, ⟨toString ft, i.ins, ?_, ?_⟩, fun _ n' hn' => ?_⟩
      · rw [hargs]
        show toString ft :: i.ins ++ [] = _
        rw [append_nil]
      · rw [hins]
        exact pushes_tag hv hr hval (by simp) hK hZ ht
      · rw [hBe] at hn'
        have hn'' : X.fallsTo = some n' := hn'
        rw [hf] at hn''
        cases hn''
  · intro B hB hret
    obtain ⟨X, D, o, vals, hBe, hty, hj, hf, ho, hargs⟩ := ret B hB hret
    refine ⟨o, vals, hargs, ?_⟩
    rw [hinputs, ho]
    exact getLast?_concat
  · rintro ⟨B0, hB0, hret⟩ o ho B hB
    obtain ⟨X0, D0, o', vals, -, -, -, -, ho', -⟩ := ret B0 hB0 hret
    rw [hinputs, ho', Option.toList_some, getLast?_concat] at ho
    obtain rfl := Option.some.inj ho
    cases comp with
    | none => rw [hr.parts.ret.1] at ho'; cases ho'
    | some g =>
      have hog : o' = "out_" ++ g := by
        rcases hr.parts.ret.2 g with h' | h'
        · rw [h'] at ho'; cases ho'
        · rw [h'] at ho'; exact (Option.some.inj ho').symm
      obtain ⟨X, D, s, body', e, hX, hD, hBe, hview, hs, hins, hsp, hph⟩ := view B hB
      refine ⟨?_, ?_, ?_⟩
      · intro i hi hm
        rcases body B hB i hi with ⟨t, _, h2⟩ | ⟨_, h2⟩
        · rw [h2, mem_singleton] at hm
          exact tag_ne_out t g (hm.symm.trans hog)
        · exact neat_ne_out (h2 _ hm).1 g hog
      · intro hm
        rcases outs B hB X hX with h1 | ⟨l, i, hl, hi, h1, -⟩
        · rw [h1.1] at hm; cases hm
        · rw [h1] at hm
          exact neat_ne_out (hfine.1.neat _ X hX i (by rw [hl]; simp) _ (mem_append_right _ hm)) g hog
      · intro p hp hpo
        rw [hph] at hp
        obtain ⟨i, hi, rfl⟩ := mem_map.1 hp
        obtain ⟨_, x, hx⟩ := (part _ X hX).phiShape i hi
        simp only [hx, headD_cons] at hpo
        subst hpo
        exact neat_ne_out (hfine.1.neat _ X hX i (mem_filter.1 hi).1 x (by rw [hx]; simp)) g hog

end
end Grey.Whole
