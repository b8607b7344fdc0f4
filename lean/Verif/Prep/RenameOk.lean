/-
Renaming keeps components well-formed and makes the variables of different components different: C59.
-/
import Verif.Prep.Rename
namespace Grey.Prep
open List Grey.Cfg Grey.Inline

/-! ### Specification -/

/-- Well-formed objects before renaming: as `ObjOk`, but components may share variables; every variable that is used is defined in the
component. -/
structure SourceOk (O : Obj) : Prop where
  comps : ∀ c C, O.comp c = some C → CompOk C
  closed : ∀ c C, O.comp c = some C → ∀ x ∈ C.body.names, isConst x = false → x ∈ C.defs
  names : ∀ c d C D, O.comp c = some C → O.comp d = some D → ∀ x y X Y, C.body.get x = some X → D.body.get y = some Y →
    ∀ w, Halves w → y.toList = x.toList ++ w → w = [] ∧ c = d
  calls : ∀ c C x X i F, O.comp c = some C → C.body.get x = some X → i ∈ X.instrs → O.fns i.op = some F → FitsCall F i
  noReturn : O.fns "functionReturn" = none
  noPhi : O.fns "PhiFunction" = none

/-! ### One component -/

section
variable {r : String → String} {C : Component}

theorem rename_get {x : String} {X' : Block} (h : (renameComp r C).body.get x = some X') :
    ∃ X, C.body.get x = some X ∧ X' = renameBlock r X := by
  have := get_rename (G := C.body) (r := r) x
  have h' : (renameBlockList r C.body).get x = some X' := h
  rw [h'] at this
  cases hX : C.body.get x with
  | none => rw [hX] at this; cases this
  | some X => rw [hX] at this; cases this; exact ⟨X, rfl, rfl⟩

theorem get_renamed {x : String} {X : Block} (h : C.body.get x = some X) : (renameComp r C).body.get x = some (renameBlock r X) := by
  have := get_rename (G := C.body) (r := r) x
  rw [h] at this; exact this

theorem rename_succs (X : Block) : (renameBlock r X).succs = X.succs := rfl

theorem rename_defs : (renameComp r C).defs = C.defs.map r := by
  simp only [Component.defs, renameComp, renameBlockList, map_append]
  congr 1
  rw [flatMap_map, map_flatMap]
  congr 1
  funext b
  simp only [renameBlock]
  rw [flatMap_map, map_flatMap]
  rfl

theorem rename_names : (renameComp r C).body.names = C.body.names.map r := by
  simp only [BlockList.names, renameComp, renameBlockList]
  rw [flatMap_map, map_flatMap]
  congr 1
  funext b
  simp only [renameBlock, map_append]
  congr 1
  · rw [flatMap_map, map_flatMap]
    congr 1
    funext i
    simp [renameInstr]
  · cases b.cond <;> rfl

theorem rename_sane (h : Sane C.body) : Sane (renameComp r C).body := by
  have hid : ((renameComp r C).body.blocks.map (·.id)) = C.body.blocks.map (·.id) := by
    simp only [renameComp, renameBlockList, map_map]; rfl
  refine ⟨⟨by rw [hid]; exact h.coherent.ids, ?_, ?_, ?_, ?_⟩, ?_, ?_, ?_⟩
  · intro p q P Q hP hQ
    obtain ⟨P0, hP0, rfl⟩ := rename_get hP
    obtain ⟨Q0, hQ0, rfl⟩ := rename_get hQ
    exact h.coherent.edges p q P0 Q0 hP0 hQ0
  · intro q Q hQ x hx
    obtain ⟨Q0, hQ0, rfl⟩ := rename_get hQ
    obtain ⟨P, hP⟩ := h.coherent.preds q Q0 hQ0 x hx
    exact ⟨_, get_renamed hP⟩
  · intro q Q hQ x hx
    obtain ⟨Q0, hQ0, rfl⟩ := rename_get hQ
    obtain ⟨P, hP⟩ := h.coherent.targets q Q0 hQ0 x hx
    exact ⟨_, get_renamed hP⟩
  · intro q Q hQ
    obtain ⟨Q0, hQ0, rfl⟩ := rename_get hQ
    exact h.coherent.once q Q0 hQ0
  · intro x X hX
    obtain ⟨X0, hX0, rfl⟩ := rename_get hX
    exact h.noDouble x X0 hX0
  · intro q Q hQ
    obtain ⟨Q0, hQ0, rfl⟩ := rename_get hQ
    exact h.entries q Q0 hQ0
  · obtain ⟨s, S, h1, h2⟩ := h.start
    exact ⟨s, _, h1, get_renamed h2⟩

theorem rename_tidy (h : Tidy C.body) : Tidy (renameComp r C).body := by
  have hsucc : ∀ x, (renameComp r C).body.succ x = C.body.succ x := by
    intro x
    unfold BlockList.succ
    cases hX : C.body.get x with
    | none =>
      have : (renameComp r C).body.get x = none := by
        have := get_rename (G := C.body) (r := r) x
        rw [hX] at this; exact this
      rw [this]
    | some X => rw [get_renamed hX]; rfl
  have hchain : Chain (renameComp r C).body = Chain C.body := by
    funext u v
    unfold Chain
    simp only [hsucc]
  refine ⟨?_, ?_, ?_⟩
  · intro s x hs
    rw [hsucc]
    exact h.entry s x hs
  · intro x X hX hp
    obtain ⟨X0, hX0, rfl⟩ := rename_get hX
    rw [phis_rename] at hp
    simp only [hsucc]
    exact h.joins x X0 hX0 (by intro h0; rw [h0] at hp; exact hp rfl)
  · intro a w ht
    rw [hchain] at ht
    rw [hsucc]
    exact h.loops a w ht

/-- A path without definitions of the new names is one without definitions of the old names. -/
theorem clear_rename {vs : List String} {b : String} {p' : List Instr} (h : Clear (renameComp r C) (vs.map r) b p') :
    ∃ B p, C.body.get b = some B ∧ p <:+ code B ∧ p' = p.map (renameInstr r) ∧ Clear C vs b p := by
  have hphi : ∀ {T : Block}, (∀ v ∈ vs.map r, ∀ i ∈ phis (renameBlock r T), v ∉ i.outs) → ∀ v ∈ vs, ∀ i ∈ phis T, v ∉ i.outs := by
    intro T hp v hv i hi ho
    refine hp (r v) (mem_map_of_mem hv) (renameInstr r i) ?_ (mem_map_of_mem ho)
    rw [phis_rename]; exact mem_map_of_mem hi
  generalize hws : vs.map r = ws at h
  induction h with
  | start hs hS ha hp =>
    subst hws
    obtain ⟨S, hS0, rfl⟩ := rename_get hS
    refine ⟨S, code S, hS0, suffix_rfl, code_rename _ _, .start hs hS0 ?_ (hphi hp)⟩
    intro v hv hva
    exact ha (r v) (mem_map_of_mem hv) (mem_map_of_mem hva)
  | @instr b i' is' h ho ih =>
    obtain ⟨B, p, hB, hp, e, hc⟩ := ih
    subst hws
    cases p with
    | nil => cases e
    | cons i is =>
      simp only [map_cons, cons.injEq] at e
      refine ⟨B, is, hB, (suffix_cons _ _).trans hp, e.2, .instr hc ?_⟩
      intro v hv hvo
      refine ho (r v) (mem_map_of_mem hv) ?_
      rw [e.1]
      exact mem_map_of_mem hvo
  | @edge b t B' T' h hB' ht hT hp ih =>
    obtain ⟨B, p, hB, hpB, e, hc⟩ := ih
    subst hws
    have : p = [] := by
      cases p with
      | nil => rfl
      | cons i is => cases e
    subst this
    obtain ⟨T, hT0, rfl⟩ := rename_get hT
    rw [get_renamed hB] at hB'
    cases hB'
    exact ⟨T, code T, hT0, suffix_rfl, code_rename _ _, .edge hc hB ht hT0 (hphi hp)⟩

theorem clear_rename_at {x b : String} {B : Block} (hB : C.body.get b = some B) {p : List Instr} (hp : p <:+ code B)
    (h : Clear (renameComp r C) [r x] b (p.map (renameInstr r))) : Clear C [x] b p := by
  obtain ⟨B2, q, hB2, hq, e, hc⟩ := clear_rename (vs := [x]) h
  rw [hB] at hB2
  cases hB2
  have hl : p.length = q.length := by simpa using congrArg length e
  have : p = q := (suffix_of_suffix_length_le hp hq (by omega)).eq_of_length hl
  rw [this]; exact hc

theorem suffix_rename {l s : List Instr} (h : s <:+ l.map (renameInstr r)) : ∃ p, p <:+ l ∧ s = p.map (renameInstr r) := by
  obtain ⟨t, ht⟩ := h
  obtain ⟨a, b, rfl, _, hb⟩ := append_eq_map_iff.1 ht
  exact ⟨b, suffix_append _ _, hb.symm⟩

theorem rename_ssa (hk : ∀ x, isConst x = true → r x = x) (hinj : ∀ x ∈ C.defs, ∀ y ∈ C.defs, r x = r y → x = y)
    (hnc : ∀ x ∈ C.defs, isConst (r x) = false) (h : StrictSSA C) : StrictSSA (renameComp r C) := by
  have hback : ∀ x, isConst (r x) = false → isConst x = false := by
    intro x hx
    cases hc : isConst x with
    | false => rfl
    | true => rw [hk x hc, hc] at hx; cases hx
  refine ⟨?_, ?_, ?_, ?_, ?_, ?_⟩
  · rw [rename_defs]
    exact h.once.map_on hinj
  · intro x hx
    rw [rename_defs] at hx
    obtain ⟨y, hy, rfl⟩ := mem_map.1 hx
    exact hnc y hy
  · intro b B i is hB hs x hx hxc
    obtain ⟨B0, hB0, rfl⟩ := rename_get hB
    rw [code_rename] at hs
    obtain ⟨p, hp, e⟩ := suffix_rename hs
    cases p with
    | nil => cases e
    | cons j js =>
      simp only [map_cons, cons.injEq] at e
      obtain ⟨rfl, rfl⟩ := e
      obtain ⟨y, hy, rfl⟩ := mem_map.1 (show x ∈ j.ins.map r from hx)
      exact fun hcl => h.ins b B0 j js hB0 hp y hy (hback y hxc) (clear_rename_at hB0 hp hcl)
  · intro b B x hB hx hxc
    obtain ⟨B0, hB0, rfl⟩ := rename_get hB
    obtain ⟨y, hy, rfl⟩ := Option.map_eq_some_iff.1 (show B0.cond.map r = some x from hx)
    exact fun hcl => h.cond b B0 y hB0 hy (hback y hxc) (clear_rename_at hB0 (nil_suffix) hcl)
  · intro b B i hB hi
    obtain ⟨B0, hB0, rfl⟩ := rename_get hB
    rw [phis_rename] at hi
    obtain ⟨j, hj, rfl⟩ := mem_map.1 hi
    obtain ⟨h1, x, h2⟩ := h.shape b B0 j hB0 hj
    exact ⟨by simpa [renameInstr, renameBlock] using h1, r x, by simp [renameInstr, h2]⟩
  · intro b B i hB hi k p x hk' hx hxc
    obtain ⟨B0, hB0, rfl⟩ := rename_get hB
    rw [phis_rename] at hi
    obtain ⟨j, hj, rfl⟩ := mem_map.1 hi
    have hx' : (j.ins.map r)[k]? = some x := hx
    rw [getElem?_map] at hx'
    obtain ⟨y, hy, rfl⟩ := Option.map_eq_some_iff.1 hx'
    intro hcl
    obtain ⟨B1, _, hB1, _⟩ := clear_rename (vs := [y]) hcl
    exact h.phis b B0 j hB0 hj k p y hk' hy (hback y hxc) (clear_rename_at hB1 nil_suffix hcl)

theorem names_ins {x : String} {X : Block} (hX : C.body.get x = some X) {i : Instr} (hi : i ∈ X.instrs) {u : String} (hu : u ∈ i.ins) :
    u ∈ C.body.names :=
  mem_flatMap.2 ⟨X, get_mem hX, mem_append.2 (Or.inl (mem_flatMap.2 ⟨i, hi, mem_append.2 (Or.inl hu)⟩))⟩

theorem rename_comp (hk : ∀ x, isConst x = true → r x = x) (hinj : ∀ x ∈ C.defs, ∀ y ∈ C.defs, r x = r y → x = y)
    (hnc : ∀ x ∈ C.defs, isConst (r x) = false) (hcl : ∀ x ∈ C.body.names, isConst x = false → x ∈ C.defs) (h : CompOk C) :
    CompOk (renameComp r C) := by
  refine ⟨rename_sane h.sane, rename_ssa hk hinj hnc h.ssa, ?_, ⟨?_, ?_, h.exits.once⟩, ?_, ?_, ?_, ?_⟩
  · classical
    obtain ⟨rank, hr⟩ := h.ordered
    refine ⟨fun y => if hy : ∃ x, x ∈ C.defs ∧ r x = y then rank hy.choose else 0, ?_⟩
    have key : ∀ x ∈ C.defs, (if hy : ∃ x', x' ∈ C.defs ∧ r x' = r x then rank hy.choose else 0) = rank x := by
      intro x hx
      have hex : ∃ x', x' ∈ C.defs ∧ r x' = r x := ⟨x, hx, rfl⟩
      rw [dif_pos hex]
      congr 1
      exact hinj _ hex.choose_spec.1 _ hx hex.choose_spec.2
    intro x X i hX hi u hu huc v hv
    obtain ⟨X0, hX0, rfl⟩ := rename_get hX
    rw [code_rename] at hi
    obtain ⟨j, hj, rfl⟩ := mem_map.1 hi
    obtain ⟨u0, hu0, rfl⟩ := mem_map.1 (show u ∈ j.ins.map r from hu)
    obtain ⟨v0, hv0, rfl⟩ := mem_map.1 (show v ∈ j.outs.map r from hv)
    have huc0 : isConst u0 = false := by
      cases hc : isConst u0 with
      | false => rfl
      | true => rw [hk u0 hc, hc] at huc; cases huc
    beta_reduce
    rw [key u0 (hcl u0 (names_ins hX0 (code_mem hj) hu0) huc0), key v0 (outs_mem_defs hX0 (code_mem hj) hv0)]
    exact hr x X0 j hX0 hj u0 hu0 huc0 v0 hv0
  · intro x
    refine (h.exits.terminals x).trans ⟨?_, ?_⟩
    · rintro ⟨X, hX, ht⟩; exact ⟨_, get_renamed hX, ht⟩
    · rintro ⟨X, hX, ht⟩
      obtain ⟨X0, hX0, rfl⟩ := rename_get hX
      exact ⟨X0, hX0, ht⟩
  · intro x
    refine (h.exits.returns x).trans ⟨?_, ?_⟩
    · rintro ⟨X, hX, ht⟩; exact ⟨_, get_renamed hX, ht⟩
    · rintro ⟨X, hX, ht⟩
      obtain ⟨X0, hX0, rfl⟩ := rename_get hX
      exact ⟨X0, hX0, ht⟩
  · intro x X hX
    obtain ⟨X0, hX0, rfl⟩ := rename_get hX
    rw [phis_rename, code_rename, ← map_append, ← h.phisFirst x X0 hX0]
    rfl
  · intro x X hX
    obtain ⟨X0, hX0, rfl⟩ := rename_get hX
    exact h.noSelf x X0 hX0
  · intro x X hX hj
    obtain ⟨X0, hX0, rfl⟩ := rename_get hX
    obtain ⟨h1, h2, i, h3, h4⟩ := h.returns x X0 hX0 hj
    refine ⟨h1, by simp [renameBlock, h2], renameInstr r i, ?_, h4⟩
    simp [renameBlock, getLast?_map, h3]
  · intro x X hX j i hi ho
    obtain ⟨X0, hX0, rfl⟩ := rename_get hX
    have hi' : (X0.instrs.map (renameInstr r))[j]? = some i := hi
    rw [getElem?_map] at hi'
    obtain ⟨i0, hi0, rfl⟩ := Option.map_eq_some_iff.1 hi'
    obtain ⟨h1, h2⟩ := h.onlyReturns x X0 hX0 j i0 hi0 ho
    exact ⟨h1, by simpa [renameBlock] using h2⟩

end

/-! ### All components -/

theorem filterMap_get {α β : Type} {f : α → Option β} : ∀ {l : List α}, (∀ x ∈ l, (f x).isSome = true) → ∀ k : Nat, (l.filterMap f)[k]? = l[k]?.bind f
  | [], _, k => by simp
  | a :: l, h, k => by
    obtain ⟨b, hb⟩ := Option.isSome_iff_exists.1 (h a mem_cons_self)
    rw [filterMap_cons, hb]
    cases k with
    | zero => simp [hb]
    | succ k =>
      simp only [getElem?_cons_succ]
      exact filterMap_get (fun x hx => h x (mem_cons_of_mem _ hx)) k

theorem lookup_zip {β : Type} : ∀ {l : List String} {l' : List β}, l.length = l'.length → ∀ f, (l.zip l').lookup f = if f ∈ l then l'[l.idxOf f]? else none
  | [], l', _, f => by simp
  | a :: l, [], h, f => by simp at h
  | a :: l, b :: l', h, f => by
    rw [zip_cons_cons, List.lookup_cons]
    by_cases hf : f = a
    · subst hf; simp
    · have h1 : (f == a) = false := by simpa using hf
      rw [h1]
      simp only
      rw [lookup_zip (by simpa using h)]
      have : l.idxOf f + 1 = (a :: l).idxOf f := by
        rw [idxOf_cons]
        have : (a == f) = false := by simpa using Ne.symm hf
        rw [this]; rfl
      rw [← this]
      simp [hf]

/-- The position of a component. -/
def compIdx (names : List String) : Option String → Nat
  | none => 0
  | some f => names.idxOf f + 1

/-- The new names. -/
def newNameOf (names : List String) (O : Obj) (c : Option String) : String → String := newName (components names O) (compIdx names c)

section
variable {names : List String} {O : Obj} (hfns : ∀ f, f ∈ names ↔ ∃ F, O.fns f = some F)
include hfns

theorem components_get {c : Option String} {C : Component} (hC : O.comp c = some C) : (components names O)[compIdx names c]? = some C := by
  cases c with
  | none => exact hC
  | some f =>
    have hF : O.fns f = some C := hC
    have hf : f ∈ names := (hfns f).2 ⟨C, hF⟩
    simp only [components, compIdx, getElem?_cons_succ]
    rw [filterMap_get (fun x hx => by obtain ⟨F, h⟩ := (hfns x).1 hx; rw [h]; rfl)]
    rw [List.getElem?_eq_getElem (idxOf_lt_length_of_mem hf), Option.bind_some, getElem_idxOf]
    exact hF

omit hfns in
theorem rename_length : ∀ (cs : List Component) (n : Nat), (renameObject cs n).length = cs.length
  | [], _ => rfl
  | c :: cs, n => by simp [renameObject, rename_length cs]

theorem renameObj_comp (c : Option String) : (renameObj names O).comp c = (O.comp c).map (renameComp (newNameOf names O c)) := by
  have hlen : (renameObject (components names O) 0).length = names.length + 1 := by
    rw [rename_length]
    simp only [components, length_cons, Nat.add_right_cancel_iff]
    have : ∀ l : List String, (∀ x ∈ l, (O.fns x).isSome = true) → (l.filterMap O.fns).length = l.length := by
      intro l
      induction l with
      | nil => intro _; rfl
      | cons a l ih =>
        intro h
        obtain ⟨b, hb⟩ := Option.isSome_iff_exists.1 (h a mem_cons_self)
        rw [filterMap_cons, hb]
        simp [ih fun x hx => h x (mem_cons_of_mem _ hx)]
    exact this names fun x hx => by obtain ⟨F, h⟩ := (hfns x).1 hx; rw [h]; rfl
  have key : ∀ c C, O.comp c = some C → (renameObject (components names O) 0)[compIdx names c]? = some (renameComp (newNameOf names O c) C) :=
    fun c C hC => renaming_consistent _ _ C (components_get hfns hC)
  unfold renameObj
  cases hr : renameObject (components names O) 0 with
  | nil => rw [hr] at hlen; simp at hlen
  | cons m fs =>
    rw [hr] at hlen key
    simp only
    cases c with
    | none =>
      have h := key none ⟨[], O.main⟩ rfl
      simp only [compIdx, getElem?_cons_zero, Option.some.injEq] at h
      simp only [Obj.comp, Option.map_some, h]
      rfl
    | some f =>
      simp only [Obj.comp]
      rw [lookup_zip (by simpa using hlen.symm)]
      by_cases hf : f ∈ names
      · obtain ⟨F, hF⟩ := (hfns f).1 hf
        have h := key (some f) F hF
        simp only [compIdx, getElem?_cons_succ] at h
        rw [if_pos hf, h, hF]; rfl
      · rw [if_neg hf]
        cases hF : O.fns f with
        | none => rfl
        | some F => exact absurd ((hfns f).2 ⟨F, hF⟩) hf

theorem newName_var {c : Option String} {C : Component} (hC : O.comp c = some C) {x : String} (hx : x ∈ C.defs) (hc : isConst x = false) :
    isConst (newNameOf names O c x) = false := by
  unfold newNameOf newName
  rw [components_get hfns hC]
  simp only [renameVar, hc, Bool.false_eq_true, if_false]
  rcases renamingDict_spec C.defs ((((components names O).take (compIdx names c)).map fun c => c.defs.length).sum) (fun _ => none) x with ⟨_, h⟩ | ⟨k, h, _⟩
  · exact absurd hx h
  · rw [h]; exact isConst_new _

theorem renameObj_renames (hnc : ∀ c C, O.comp c = some C → ∀ x ∈ C.defs, isConst x = false) :
    Renames O (renameObj names O) (newNameOf names O) where
  comp := renameObj_comp hfns
  consts c x hx := renaming_constants _ _ x hx
  inj c C hC x hx y hy e := (renaming_injective _ _ _ C C (components_get hfns hC) (components_get hfns hC) x y hx hy (hnc c C hC x hx)
    (hnc c C hC y hy) e).2
  noConst c C hC x hx := newName_var hfns hC hx (hnc c C hC x hx)

theorem compIdx_inj {c d : Option String} {C D : Component} (hC : O.comp c = some C) (hD : O.comp d = some D)
    (h : compIdx names c = compIdx names d) : c = d := by
  cases c with
  | none => cases d with
    | none => rfl
    | some g => simp [compIdx] at h
  | some f => cases d with
    | none => simp [compIdx] at h
    | some g =>
      simp only [compIdx, Nat.add_right_cancel_iff] at h
      have hf : f ∈ names := (hfns f).2 ⟨C, hC⟩
      rw [(idxOf_inj hf).1 h]

/-- **C59.** Renaming the variables of an object preserves its executions; the components stay well-formed and no longer share
variables. -/
theorem renaming_preserves (ok : SourceOk O) : SameRuns O (renameObj names O) ∧ ObjOk (renameObj names O) ∧
    ∀ c, (renameObj names O).comp c = (O.comp c).map (renameComp (newNameOf names O c)) := by
  have hnc : ∀ c C, O.comp c = some C → ∀ x ∈ C.defs, isConst x = false := fun c C hC => (ok.comps c C hC).ssa.noConst
  have R := renameObj_renames hfns hnc
  have back : ∀ {c C'}, (renameObj names O).comp c = some C' → ∃ C, O.comp c = some C ∧ C' = renameComp (newNameOf names O c) C := by
    intro c C' h
    rw [R.comp] at h
    obtain ⟨C, h1, h2⟩ := Option.map_eq_some_iff.1 h
    exact ⟨C, h1, h2.symm⟩
  refine ⟨renames_sameRuns R fun c C hC => (ok.comps c C hC).ssa, ?_, R.comp⟩
  refine ⟨?_, ?_, ?_, ?_, ?_, ?_⟩
  · intro c C' hC'
    obtain ⟨C, hC, rfl⟩ := back hC'
    exact rename_comp (R.consts c) (R.inj c C hC) (R.noConst c C hC) (ok.closed c C hC) (ok.comps c C hC)
  · intro c d C' D' hC' hD' hne x hx hxc hxd
    obtain ⟨C, hC, rfl⟩ := back hC'
    obtain ⟨D, hD, rfl⟩ := back hD'
    have key : ∀ {c C}, O.comp c = some C → ∀ x, x ∈ (renameComp (newNameOf names O c) C).args ++ (renameComp (newNameOf names O c) C).body.names →
        isConst x = false → ∃ y, y ∈ C.defs ∧ isConst y = false ∧ newNameOf names O c y = x := by
      intro c C hC x hx hxc
      rw [rename_names] at hx
      have hx' : x ∈ (C.args ++ C.body.names).map (newNameOf names O c) := by rw [map_append]; exact hx
      obtain ⟨y, hy, rfl⟩ := mem_map.1 hx'
      have hyc : isConst y = false := by
        cases hc : isConst y with
        | false => rfl
        | true => rw [R.consts c y hc, hc] at hxc; cases hxc
      refine ⟨y, ?_, hyc, rfl⟩
      rcases mem_append.1 hy with h | h
      · exact mem_append.2 (Or.inl h)
      · exact ok.closed c C hC y h hyc
    obtain ⟨y, hy, hyc, e1⟩ := key hC x hx hxc
    obtain ⟨z, hz, hzc, e2⟩ := key hD x hxd hxc
    exact hne (compIdx_inj hfns hC hD (renaming_injective _ _ _ C D (components_get hfns hC) (components_get hfns hD) y z hy hz hyc hzc
      (e1.trans e2.symm)).1)
  · intro c d C' D' hC' hD' x y X Y hX hY
    obtain ⟨C, hC, rfl⟩ := back hC'
    obtain ⟨D, hD, rfl⟩ := back hD'
    obtain ⟨X0, hX0, rfl⟩ := rename_get hX
    obtain ⟨Y0, hY0, rfl⟩ := rename_get hY
    exact ok.names c d C D hC hD x y X0 Y0 hX0 hY0
  · intro c C' x X i F' hC' hX hi hF'
    obtain ⟨C, hC, rfl⟩ := back hC'
    obtain ⟨X0, hX0, rfl⟩ := rename_get hX
    obtain ⟨i0, hi0, rfl⟩ := mem_map.1 (show i ∈ X0.instrs.map (renameInstr (newNameOf names O c)) from hi)
    have hF2 : (renameObj names O).comp (some i0.op) = some F' := hF'
    obtain ⟨F, hF, rfl⟩ := back hF2
    obtain ⟨h1, h2⟩ := ok.calls c C x X0 i0 F hC hX0 hi0 hF
    refine ⟨by simpa [renameComp, renameInstr] using h1, ?_⟩
    intro x X q hX hj hq
    obtain ⟨X0, hX0, rfl⟩ := rename_get hX
    have hq' : (X0.instrs.map (renameInstr (newNameOf names O (some i0.op)))).getLast? = some q := hq
    rw [getLast?_map] at hq'
    obtain ⟨q0, hq0, rfl⟩ := Option.map_eq_some_iff.1 hq'
    simpa [renameInstr] using h2 x X0 q0 hX0 hj hq0
  · have := R.comp (some "functionReturn")
    have h2 : O.comp (some "functionReturn") = none := ok.noReturn
    rw [h2] at this; exact this
  · have := R.comp (some "PhiFunction")
    have h2 : O.comp (some "PhiFunction") = none := ok.noPhi
    rw [h2] at this; exact this

end

end Grey.Prep
