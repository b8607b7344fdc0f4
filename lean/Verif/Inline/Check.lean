/-
Deciding that concrete objects are well-formed, for the examples beside the theorems.
-/
import Verif.Inline.PassProof
import Verif.Cfg.Check
namespace Grey.Inline
open List Grey.Cfg

/-- An object with a list of functions. -/
def Obj.ofList (main : BlockList) (fns : List (String × Component)) : Obj := ⟨main, fun f => fns.lookup f⟩

/-- The variables used by the instructions are in the list of those available or are defined before. -/
def usesB : List String → List Instr → Bool
  | _, [] => true
  | A, i :: is => i.ins.all (fun x => isConst x || decide (x ∈ A)) && usesB (A ++ i.outs) is

/-- The variables available at the end of a block. -/
def endOf (A : String → List String) (B : Block) : List String := A B.id ++ (code B).flatMap (·.outs)

/-- A certificate for `StrictSSA`: `A x` are variables that are available where the code of block `x` begins. -/
def ssaB (A : String → List String) (c : Component) : Bool :=
  decide c.defs.Nodup && c.defs.all (fun x => !isConst x) &&
  (match c.body.start with
   | none => true
   | some s => match c.body.get s with
     | none => true
     | some S => (A s).all fun v => decide (v ∈ c.args) || decide (v ∈ (phis S).flatMap (·.outs))) &&
  (c.body.blocks.all fun B => usesB (A B.id) (code B)) &&
  (c.body.blocks.all fun B => B.cond.all fun x => isConst x || decide (x ∈ endOf A B)) &&
  (c.body.blocks.all fun B => B.succs.all fun t => (c.body.get t).all fun T =>
    (A t).all fun v => decide (v ∈ endOf A B) || decide (v ∈ (phis T).flatMap (·.outs))) &&
  (c.body.blocks.all fun B => (phis B).all fun i => decide (i.ins.length = B.entries.length) && decide (i.outs.length = 1)) &&
  (c.body.blocks.all fun B => (phis B).all fun i => (B.entries.zip i.ins).all fun q => isConst q.2 ||
    (c.body.get q.1).all fun P => decide (q.2 ∈ endOf A P))

theorem uses_of_check : ∀ {l : List Instr} {A : List String}, usesB A l = true → ∀ pre i is, l = pre ++ i :: is → ∀ x ∈ i.ins,
    isConst x = false → x ∈ A ++ pre.flatMap (·.outs)
  | [], A, _, pre, i, is, e, x, hx, hc => by simp at e
  | a :: l, A, h, pre, i, is, e, x, hx, hc => by
    unfold usesB at h
    rw [Bool.and_eq_true, all_eq_true] at h
    cases pre with
    | nil =>
      simp only [nil_append, cons.injEq] at e
      obtain ⟨rfl, rfl⟩ := e
      have := h.1 x hx
      rw [hc] at this
      simpa using this
    | cons p pre =>
      simp only [cons_append, cons.injEq] at e
      obtain ⟨rfl, rfl⟩ := e
      have := uses_of_check h.2 pre i is rfl x hx hc
      simpa using this

theorem get_of_mem {G : BlockList} (hn : (G.blocks.map (·.id)).Nodup) {X : Block} (hX : X ∈ G.blocks) : G.get X.id = some X := by
  obtain ⟨Y, hY⟩ := get_isSome_iff.2 (mem_map_of_mem (f := (·.id)) hX)
  rwa [inj_on_of_nodup_map hn (get_mem hY) hX (get_id hY)] at hY

theorem ssa_of_check {A : String → List String} {c : Component} (h : ssaB A c = true) : StrictSSA c := by
  unfold ssaB at h
  simp only [Bool.and_eq_true, all_eq_true, decide_eq_true_eq, Bool.or_eq_true, Bool.not_eq_true'] at h
  obtain ⟨⟨⟨⟨⟨⟨⟨h1, h2⟩, h3⟩, h4⟩, h5⟩, h6⟩, h7⟩, h8⟩ := h
  -- what is available is defined on all paths
  have key : ∀ {vs b rest}, Clear c vs b rest → ∃ B done, c.body.get b = some B ∧ code B = done ++ rest ∧
      ∀ v ∈ vs, v ∉ A b ∧ v ∉ done.flatMap (·.outs) := by
    intro vs b rest hcl
    induction hcl with
    | @start s S hs hS ha hp =>
      refine ⟨S, [], hS, rfl, fun v hv => ⟨?_, by simp⟩⟩
      intro hA
      rw [hs] at h3
      simp only [hS] at h3
      have h3' := (all_eq_true.1 h3) v hA
      simp only [Bool.or_eq_true, decide_eq_true_eq] at h3'
      rcases h3' with h | h
      · exact ha v hv h
      · obtain ⟨i, hi, ho⟩ := mem_flatMap.1 h
        exact hp v hv i hi ho
    | @instr b i is _ ho ih =>
      obtain ⟨B, done, hB, e, hd⟩ := ih
      refine ⟨B, done ++ [i], hB, by rw [e]; simp, fun v hv => ⟨(hd v hv).1, ?_⟩⟩
      rw [flatMap_append, mem_append, not_or]
      exact ⟨(hd v hv).2, by simpa using ho v hv⟩
    | @edge b t B T _ hB ht hT hp ih =>
      obtain ⟨B', done, hB', e, hd⟩ := ih
      rw [hB] at hB'
      obtain rfl := Option.some.inj hB'
      refine ⟨T, [], hT, rfl, fun v hv => ⟨?_, by simp⟩⟩
      intro hA
      have := h6 B (get_mem hB) t ht
      rw [hT] at this
      simp only [Option.all_some, all_eq_true, Bool.or_eq_true, decide_eq_true_eq] at this
      rcases this v hA with h | h
      · unfold endOf at h
        rw [get_id hB, e, append_nil] at h
        rcases mem_append.1 h with h | h
        · exact (hd v hv).1 h
        · exact (hd v hv).2 h
      · obtain ⟨i, hi, ho⟩ := mem_flatMap.1 h
        exact hp v hv i hi ho
  have keyEnd : ∀ {x b B}, c.body.get b = some B → x ∈ endOf A B → ¬ Clear c [x] b [] := by
    intro x b B hB hx hcl
    obtain ⟨B', done, hB', e, hd⟩ := key hcl
    rw [hB] at hB'
    obtain rfl := Option.some.inj hB'
    unfold endOf at hx
    rw [get_id hB, e, append_nil] at hx
    rcases mem_append.1 hx with h | h
    · exact (hd x (by simp)).1 h
    · exact (hd x (by simp)).2 h
  refine ⟨h1, fun x hx => h2 x hx, ?_, ?_, ?_, ?_⟩
  · intro b B i is hB hs x hx hc hcl
    obtain ⟨B', done, hB', e, hd⟩ := key hcl
    rw [hB] at hB'
    obtain rfl := Option.some.inj hB'
    have := uses_of_check (h4 B (get_mem hB)) done i is e x hx hc
    rw [get_id hB] at this
    rcases mem_append.1 this with h | h
    · exact (hd x (by simp)).1 h
    · exact (hd x (by simp)).2 h
  · intro b B x hB hx hc
    refine keyEnd hB ?_
    have := h5 B (get_mem hB)
    rw [hx] at this
    simp only [Option.all_some, Bool.or_eq_true, decide_eq_true_eq] at this
    rcases this with h | h
    · rw [hc] at h; cases h
    · exact h
  · intro b B i hB hi
    obtain ⟨e1, e2⟩ := h7 B (get_mem hB) i hi
    exact ⟨e1, length_eq_one_iff.1 e2⟩
  · intro b B i hB hi k p x hp hx hc hcl
    have := h8 B (get_mem hB) i hi (p, x) (mem_of_getElem? (i := k) (by rw [getElem?_zip_eq_some]; exact ⟨hp, hx⟩))
    obtain ⟨P, _, hP, _, _⟩ := key hcl
    simp only [hP, Option.all_some, decide_eq_true_eq] at this
    rcases this with h | h
    · rw [hc] at h; cases h
    · exact keyEnd hP h hcl

def exitType (t : String) : Bool := t == "FunctionReturn" || t == "mainExit" || t == "terminal"

/-- A certificate for `CompOk`: also an order of the variables. -/
def compB (A : String → List String) (order : List String) (c : Component) : Bool :=
  saneB c.body && ssaB A c &&
  (c.body.blocks.all fun X => (code X).all fun i => i.ins.all fun u => isConst u || i.outs.all fun v => decide (order.idxOf u < order.idxOf v)) &&
  decide (c.body.terminals = (c.body.blocks.filter fun X => exitType X.jumpType).map (·.id)) &&
  decide (c.body.returns = (c.body.blocks.filter fun X => X.jumpType == "FunctionReturn").map (·.id)) &&
  (c.body.blocks.all fun X => decide (X.instrs = phis X ++ code X) && decide (X.id ∉ X.succs)) &&
  (c.body.blocks.all fun X => X.jumpType != "FunctionReturn" || (decide (X.succs = []) && decide (X.cond = none) &&
    (X.instrs.getLast?.any fun i => i.op == "functionReturn"))) &&
  (c.body.blocks.all fun X => X.instrs.zipIdx.all fun p => p.1.op != "functionReturn" ||
    (X.jumpType == "FunctionReturn" && decide (p.2 + 1 = X.instrs.length)))

theorem comp_of_check {A : String → List String} {order : List String} {c : Component} (h : compB A order c = true) : CompOk c := by
  unfold compB at h
  simp only [Bool.and_eq_true, all_eq_true, decide_eq_true_eq] at h
  obtain ⟨⟨⟨⟨⟨⟨⟨h1, h2⟩, h3⟩, h4⟩, h5⟩, h6⟩, h7⟩, h8⟩ := h
  have hs := sane_of_check h1
  have mem_exits : ∀ (p : Block → Bool) x, x ∈ (c.body.blocks.filter p).map (·.id) ↔ ∃ X, c.body.get x = some X ∧ p X = true := by
    intro p x
    rw [mem_map]
    constructor
    · rintro ⟨X, hX, rfl⟩
      exact ⟨X, get_of_mem hs.coherent.ids (mem_filter.1 hX).1, (mem_filter.1 hX).2⟩
    · rintro ⟨X, hX, hp⟩
      exact ⟨X, mem_filter.2 ⟨get_mem hX, hp⟩, get_id hX⟩
  have nod : ∀ p : Block → Bool, ((c.body.blocks.filter p).map (·.id)).Nodup := fun p =>
    hs.coherent.ids.sublist ((filter_sublist (p := p)).map _)
  refine ⟨hs, ssa_of_check h2, ⟨fun v => order.idxOf v, ?_⟩, ⟨?_, ?_, ?_⟩, ?_, ?_, ?_, ?_⟩
  · intro x X i hX hi u hu huc v hv
    have := h3 X (get_mem hX) i hi u hu
    rw [huc] at this
    simp only [Bool.false_or, all_eq_true, decide_eq_true_eq] at this
    exact this v hv
  · intro x
    rw [h4, mem_exits]
    simp only [exitType, Bool.or_eq_true, beq_iff_eq, or_assoc]
  · intro x
    rw [h5, mem_exits]
    simp only [beq_iff_eq]
  · rw [h4, h5]; exact ⟨nod _, nod _⟩
  · intro x X hX; exact (h6 X (get_mem hX)).1
  · intro x X hX
    have := (h6 X (get_mem hX)).2
    rwa [get_id hX] at this
  · intro x X hX hj
    have := h7 X (get_mem hX)
    rw [hj] at this
    simp only [bne_self_eq_false, Bool.false_or, Bool.and_eq_true, decide_eq_true_eq, Option.any_eq_true, beq_iff_eq] at this
    obtain ⟨⟨a1, a2⟩, i, a3, a4⟩ := this
    exact ⟨a1, a2, i, a3, a4⟩
  · intro x X hX j i hi ho
    have := h8 X (get_mem hX) (i, j) (mem_zipIdx_iff_getElem?.2 hi)
    rw [ho] at this
    simpa using this

/-- Whether a list of letters consists of the letters of halves. -/
def halvesB (w : List Char) : Bool := w.all fun c => c == 'f' || c == 's'

/-- Two components share no variables. -/
def varsB (C D : Component) : Bool := (C.args ++ C.body.names).all fun x => isConst x || !decide (x ∈ D.args ++ D.body.names)

/-- No name of a block of the second component is one of the first followed by letters of halves. -/
def namesB (C D : Component) : Bool := C.body.blocks.all fun X => D.body.blocks.all fun Y =>
  !(X.id.toList.isPrefixOf Y.id.toList && halvesB (Y.id.toList.drop X.id.toList.length))

/-- The same within a component, where a block has its own name. -/
def namesOwnB (C : Component) : Bool := C.body.blocks.all fun X => C.body.blocks.all fun Y =>
  !(X.id.toList.isPrefixOf Y.id.toList && halvesB (Y.id.toList.drop X.id.toList.length)) || X.id == Y.id

def fitsB (F : Component) (i : Instr) : Bool := decide (F.args.length = i.ins.length) &&
  F.body.blocks.all fun X => X.jumpType != "FunctionReturn" || X.instrs.getLast?.all fun r => decide (r.ins.length = i.outs.length)

/-- The components of an object given by lists. -/
def compsOf (main : BlockList) (fns : List (String × Component)) : List (Option String × Component) :=
  (none, ⟨[], main⟩) :: fns.map fun p => (some p.1, p.2)

/-- A certificate for `ObjOk`. -/
def objB (cert : Option String → (String → List String) × List String) (main : BlockList) (fns : List (String × Component)) : Bool :=
  ((compsOf main fns).all fun p => compB (cert p.1).1 (cert p.1).2 p.2 && namesOwnB p.2) &&
  ((compsOf main fns).all fun p => (compsOf main fns).all fun q => p.1 == q.1 || (varsB p.2 q.2 && namesB p.2 q.2)) &&
  ((compsOf main fns).all fun p => p.2.body.blocks.all fun X => X.instrs.all fun i => (fns.lookup i.op).all fun F => fitsB F i) &&
  decide (fns.lookup "functionReturn" = none) && decide (fns.lookup "PhiFunction" = none)

theorem mem_compsOf {main : BlockList} {fns : List (String × Component)} {c : Option String} {C : Component}
    (h : (Obj.ofList main fns).comp c = some C) : (c, C) ∈ compsOf main fns := by
  cases c with
  | none =>
    simp only [Obj.comp, Obj.ofList, Option.some.injEq] at h
    subst h
    exact mem_cons_self
  | some f =>
    have h' : fns.lookup f = some C := h
    rw [List.lookup_eq_some_iff] at h'
    obtain ⟨l1, l2, e, _⟩ := h'
    refine mem_cons_of_mem _ (mem_map.2 ⟨(f, C), by rw [e]; simp, rfl⟩)

theorem halves_of_check {w : List Char} (h : Halves w) : halvesB w = true := by
  unfold halvesB
  rw [all_eq_true]
  intro c hc
  rcases h c hc with rfl | rfl <;> rfl

theorem obj_of_check {cert : Option String → (String → List String) × List String} {main : BlockList} {fns : List (String × Component)}
    (h : objB cert main fns = true) : ObjOk (Obj.ofList main fns) := by
  unfold objB at h
  simp only [Bool.and_eq_true, all_eq_true, decide_eq_true_eq, Bool.or_eq_true, beq_iff_eq] at h
  obtain ⟨⟨⟨⟨h1, h2⟩, h3⟩, h4⟩, h5⟩ := h
  have one : ∀ {c C D}, (Obj.ofList main fns).comp c = some C → (Obj.ofList main fns).comp c = some D → C = D := by
    intro c C D hC hD
    rw [hC] at hD
    exact Option.some.inj hD
  refine ⟨?_, ?_, ?_, ?_, h4, h5⟩
  · intro c C hC
    exact comp_of_check (h1 _ (mem_compsOf hC)).1
  · intro c d C D hC hD hcd x hx hc hxd
    rcases h2 _ (mem_compsOf hC) _ (mem_compsOf hD) with h | h
    · exact hcd h
    · have := (all_eq_true.1 h.1) x hx
      rw [hc] at this
      simp only [Bool.false_or, Bool.not_eq_true', decide_eq_false_iff_not] at this
      exact this hxd
  · intro c d C D hC hD x y X Y hX hY w hw e
    have hpre : (X.id.toList.isPrefixOf Y.id.toList && halvesB (Y.id.toList.drop X.id.toList.length)) = true := by
      rw [get_id hX, get_id hY, e, Bool.and_eq_true]
      refine ⟨by rw [isPrefixOf_iff_prefix]; exact prefix_append _ _, ?_⟩
      rw [drop_left']
      · exact halves_of_check hw
      · rfl
    rcases h2 _ (mem_compsOf hC) _ (mem_compsOf hD) with h | h
    · have h' : c = d := h
      subst h'
      obtain rfl := one hC hD
      have := (h1 _ (mem_compsOf hC)).2
      unfold namesOwnB at this
      simp only [all_eq_true] at this
      have := this X (get_mem hX) Y (get_mem hY)
      rw [hpre] at this
      simp only [Bool.not_true, Bool.false_or, beq_iff_eq] at this
      rw [get_id hX, get_id hY] at this
      subst this
      exact ⟨by simpa using e, rfl⟩
    · have := h.2
      unfold namesB at this
      simp only [all_eq_true] at this
      have := this X (get_mem hX) Y (get_mem hY)
      rw [hpre] at this
      cases this
  · intro c C x X i F hC hX hi hF
    have := h3 _ (mem_compsOf hC) X (get_mem hX) i hi
    have hF' : fns.lookup i.op = some F := hF
    rw [hF'] at this
    simp only [Option.all_some, fitsB, Bool.and_eq_true, decide_eq_true_eq, all_eq_true] at this
    refine ⟨this.1, ?_⟩
    intro y Y r hY hj hr
    have := this.2 Y (get_mem hY)
    rw [hj, hr] at this
    simpa using this

/-! ### Orders -/

/-- The calls of a function, given as lists. -/
def callsB (main : BlockList) (fns : List (String × Component)) (f : String) : List (Option String × String × Nat) :=
  (compsOf main fns).flatMap fun p => p.2.body.blocks.flatMap fun X => (X.instrs.zipIdx.filter fun q => q.1.op == f).map fun q => (p.1, X.id, q.2)

theorem comp_of_mem {main : BlockList} {fns : List (String × Component)} (hn : (fns.map Prod.fst).Nodup) {c : Option String} {C : Component}
    (h : (c, C) ∈ compsOf main fns) : (Obj.ofList main fns).comp c = some C := by
  rcases mem_cons.1 h with h0 | h0
  · simp only [Prod.mk.injEq] at h0
    obtain ⟨rfl, rfl⟩ := h0
    rfl
  · obtain ⟨⟨f, D⟩, hp, e⟩ := mem_map.1 h0
    simp only [Prod.mk.injEq] at e
    obtain ⟨rfl, rfl⟩ := e
    show fns.lookup f = some D
    revert hp hn
    clear h h0
    intro hn hp
    induction fns with
    | nil => cases hp
    | cons a fns ih =>
      rw [map_cons, nodup_cons] at hn
      rw [List.lookup_cons]
      rcases mem_cons.1 hp with rfl | hp
      · simp
      · have : f ≠ a.1 := by rintro rfl; exact hn.1 (mem_map.2 ⟨_, hp, rfl⟩)
        rw [beq_false_of_ne this]
        exact ih hn.2 hp

theorem mem_fnames {main : BlockList} {fns : List (String × Component)} {f : String} :
    f ∈ fns.map Prod.fst ↔ ∃ F, (Obj.ofList main fns).fns f = some F := by
  show _ ↔ ∃ F, fns.lookup f = some F
  constructor
  · intro h
    cases hl : fns.lookup f with
    | some F => exact ⟨F, rfl⟩
    | none =>
      rw [List.lookup_eq_none_iff] at hl
      obtain ⟨p, hp, rfl⟩ := mem_map.1 h
      have := hl p hp
      simp at this
  · rintro ⟨F, hF⟩
    rw [List.lookup_eq_some_iff] at hF
    obtain ⟨l1, l2, rfl, _⟩ := hF
    simp

theorem mem_callsB {main : BlockList} {fns : List (String × Component)} (hn : (fns.map Prod.fst).Nodup) (ok : ∀ c C, (Obj.ofList main fns).comp c = some C → CompOk C)
    {f : String} {c : Option String} {x : String} {j : Nat} : (c, x, j) ∈ callsB main fns f ↔ Calls (Obj.ofList main fns) f c x j := by
  unfold callsB
  rw [mem_flatMap]
  constructor
  · rintro ⟨⟨d, D⟩, hp, h⟩
    obtain ⟨X, hX, h⟩ := mem_flatMap.1 h
    obtain ⟨⟨i, k⟩, hq, e⟩ := mem_map.1 h
    simp only [Prod.mk.injEq] at e
    obtain ⟨rfl, rfl, rfl⟩ := e
    obtain ⟨h1, h2⟩ := mem_filter.1 hq
    have hD := comp_of_mem hn hp
    exact ⟨D, X, i, hD, get_of_mem (ok d D hD).sane.coherent.ids hX, mem_zipIdx_iff_getElem?.1 h1, by simpa using h2⟩
  · rintro ⟨C, X, i, hC, hX, hi, ho⟩
    refine ⟨(c, C), mem_compsOf hC, mem_flatMap.2 ⟨X, get_mem hX, mem_map.2 ⟨(i, j), mem_filter.2 ⟨mem_zipIdx_iff_getElem?.2 hi, by simpa using ho⟩, ?_⟩⟩⟩
    simp [get_id hX]

/-- A decision procedure for `CalleesFirst`. -/
def orderB (main : BlockList) (fns : List (String × Component)) (order : List String) : Bool :=
  decide (fns.map Prod.fst).Nodup && decide order.Nodup && (order.all fun f => (fns.lookup f).isSome) &&
  (fns.all fun p => (callsB main fns p.1).isEmpty || decide (p.1 ∈ order)) &&
  decide (order.Pairwise fun g f => (callsB main fns f).all (fun q => q.1 != some g) = true) &&
  ((compsOf main fns).all fun p => p.1.all fun f => (callsB main fns f).all fun q => q.1 != some f)

theorem order_of_check {main : BlockList} {fns : List (String × Component)} {order : List String} (ok : ∀ c C, (Obj.ofList main fns).comp c = some C → CompOk C)
    (h : orderB main fns order = true) : CalleesFirst (Obj.ofList main fns) order := by
  unfold orderB at h
  simp only [Bool.and_eq_true, all_eq_true, decide_eq_true_eq, Bool.or_eq_true] at h
  obtain ⟨⟨⟨⟨⟨h1, h2⟩, h3⟩, h4⟩, h5⟩, h6⟩ := h
  refine ⟨h2, ?_, ?_, ?_, ?_⟩
  · intro f hf
    exact Option.isSome_iff_exists.1 (h3 f hf)
  · intro f F c x j hF hc
    have hm := mem_compsOf (c := some f) (C := F) hF
    have hp : (f, F) ∈ fns := by
      rcases mem_cons.1 hm with e | e
      · simp at e
      · obtain ⟨p, hp, e⟩ := mem_map.1 e
        simp only [Prod.mk.injEq, Option.some.injEq] at e
        obtain ⟨e1, e2⟩ := e
        rw [← e1, ← e2]; exact hp
    rcases h4 _ hp with h | h
    · rw [List.isEmpty_iff] at h
      have := (mem_callsB h1 ok).2 hc
      rw [show callsB main fns f = [] from h] at this
      cases this
    · exact h
  · refine h5.imp ?_
    intro g f hh _ _ x j hc
    have := hh _ ((mem_callsB h1 ok).2 hc)
    simp at this
  · intro f _ x j hc
    have hc' := hc
    obtain ⟨F, _, _, hF, _⟩ := hc'
    have := h6 _ (mem_compsOf (c := some f) hF)
    simp only [Option.all_some, all_eq_true] at this
    have := this _ ((mem_callsB h1 ok).2 hc)
    simp at this

end Grey.Inline
