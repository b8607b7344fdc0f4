/-
The inlining of all functions that are called once (src/cfg_methods/function_inlining.py:68-133, 135-164): C57.

The order in which the functions are visited is that of `nx.topological_sort` on the condensation of the graph of calls, with the
members of a strongly connected component in any order; here it is a parameter. The estimation of costs
(`compute_gas_bytes_function`) does not influence the result, since `_must_be_inlined` is only true of functions with one call; hence
functions are never copied (`_generate_function_to_inline` returns the function itself). Subobjects are handled separately.
-/
import Verif.Inline.ObjAfter
import Verif.Cfg.InlineIndex
import Mathlib.Data.List.Forall2
namespace Grey.Inline
open List Grey.Cfg

/-! ### Model -/

/-- src/cfg_methods/function_inlining.py:68-76 (`generate_function2blocks_block_list`) for one function: the positions, not counting
phi functions, the blocks and the component of its calls. -/
def sitesOf (f : String) (c : Option String) (G : BlockList) : List (Nat × String × Option String) :=
  G.blocks.flatMap fun X => ((code X).zipIdx.filter fun p => p.1.op == f).map fun p => (p.2, X.id, c)

/-- src/cfg_methods/function_inlining.py:45-65 (`generate_function2information`) for one object and one function. `names` are the keys
of `cfg_object.functions`. -/
def callSites (names : List String) (O : Obj) (f : String) : List (Nat × String × Option String) :=
  (none :: names.map some).flatMap fun c => match O.comp c with
    | none => []
    | some C => sitesOf f c C.body

/-- src/cfg_methods/function_inlining.py:135-158 (`_determine_idx`): `i` counts the blocks passed; `none` is an exception. -/
def determine (G : BlockList) : Nat → List String → Nat → Option (Nat × Nat)
  | _, [], _ => none
  | p, x :: xs, i => (G.get x).bind fun X =>
    if p < (code X).length then some (i, p + (phis X).length) else determine G (p - ((code X).length + 1)) xs (i + 1)

/-- src/cfg_methods/function_inlining.py:100-105 -/
def locate (G : BlockList) (p : Nat) (xs : List String) : Option (Nat × Nat) :=
  if xs.length > 1 then determine G p xs 0 else xs[0]?.bind fun x => (G.get x).map fun X => (0, p + (phis X).length)

/-- The object and `block2current`. -/
abbrev PassState := Obj × (String → List String)

/-- src/cfg_methods/function_inlining.py:86-133: one function. (`block2current.get(name, [name])` is `cur name`.) -/
def passStep (sites : String → List (Nat × String × Option String)) (f : String) (st : PassState) : Option PassState :=
  (st.1.fns f).bind fun _ =>
    match sites f with
    | [(p, b, c)] =>
      (st.1.comp c).bind fun C =>
      (locate C.body p (st.2 b)).bind fun r =>
      ((st.2 b)[r.1]?).bind fun x =>
      (inlineObj r.2 x c f st.1).map fun O' =>
        (O', fun y => if y = b then (st.2 b).take r.1 ++ [firstId x, secondId x] ++ (st.2 b).drop (r.1 + 1) else st.2 y)
    | _ => some st

/-- src/cfg_methods/function_inlining.py:80-133 -/
def passLoop (sites : String → List (Nat × String × Option String)) : List String → PassState → Option PassState
  | [], st => some st
  | f :: fs, st => (passStep sites f st).bind (passLoop sites fs)

/-- src/cfg_methods/function_inlining.py:29-41 for one object whose functions are `names`; the calls are those of the object before any
inlining. -/
def inlinePass (names order : List String) (O : Obj) : Option Obj :=
  (passLoop (callSites names O) order (O, fun b => [b])).map Prod.fst

/-! ### Specification -/

/-- The program text contains exactly one call of `f`. -/
def CalledOnce (O : Obj) (f : String) : Prop :=
  ∃ c x j, Calls O f c x j ∧ ∀ c' x' j', Calls O f c' x' j' → c' = c ∧ x' = x ∧ j' = j

/-- The order in which functions are inlined: it lists the functions that are called somewhere, and of two functions that are called
once, the callee comes before the caller. No function has its only call in itself. (A topological order of the calls is such an
order.) -/
structure CalleesFirst (O : Obj) (order : List String) : Prop where
  nodup : order.Nodup
  functions : ∀ f ∈ order, ∃ F, O.fns f = some F
  called : ∀ f F c x j, O.fns f = some F → Calls O f c x j → f ∈ order
  sorted : order.Pairwise fun g f => CalledOnce O f → CalledOnce O g → ∀ x j, ¬ Calls O f (some g) x j
  noSelf : ∀ f, CalledOnce O f → ∀ x j, ¬ Calls O f (some f) x j

/-! ### The positions of calls -/

theorem eq_singleton_of_nodup {α : Type} {l : List α} {a : α} (ha : a ∈ l) (hn : l.Nodup) (h : ∀ x ∈ l, x = a) : l = [a] := by
  cases l with
  | nil => cases ha
  | cons x l =>
    obtain rfl := h x mem_cons_self
    cases l with
    | nil => rfl
    | cons y l =>
      rw [h y (mem_cons_of_mem _ mem_cons_self), nodup_cons] at hn
      exact absurd mem_cons_self hn.1

theorem mem_sitesOf {f : String} {c : Option String} {G : BlockList} {q : Nat × String × Option String} :
    q ∈ sitesOf f c G ↔ q.2.2 = c ∧ ∃ X ∈ G.blocks, X.id = q.2.1 ∧ ∃ i, (code X)[q.1]? = some i ∧ i.op = f := by
  unfold sitesOf
  rw [mem_flatMap]
  constructor
  · rintro ⟨X, hX, hq⟩
    obtain ⟨p, hp, rfl⟩ := mem_map.1 hq
    obtain ⟨hp1, hp2⟩ := mem_filter.1 hp
    exact ⟨rfl, X, hX, rfl, p.1, by simpa [mk_mem_zipIdx_iff_getElem?] using (mem_zipIdx_iff_getElem?.1 hp1), by simpa using hp2⟩
  · rintro ⟨rfl, X, hX, e, i, hi, ho⟩
    refine ⟨X, hX, mem_map.2 ⟨(i, q.1), mem_filter.2 ⟨mem_zipIdx_iff_getElem?.2 hi, by simpa using ho⟩, ?_⟩⟩
    obtain ⟨p, x, c⟩ := q
    simp only at e
    simp [e]

theorem nodup_sitesOf {f : String} {c : Option String} {G : BlockList} (hn : (G.blocks.map (·.id)).Nodup) : (sitesOf f c G).Nodup := by
  unfold sitesOf
  rw [nodup_flatMap]
  constructor
  · intro X _
    refine Nodup.map_on ?_ (Nodup.filter _ ?_)
    · rintro ⟨i, p⟩ h1 ⟨j, q⟩ h2 e
      simp only [Prod.mk.injEq, and_true] at e
      subst e
      have a1 := mem_zipIdx_iff_getElem?.1 (mem_filter.1 h1).1
      have a2 := mem_zipIdx_iff_getElem?.1 (mem_filter.1 h2).1
      simp only at a1 a2
      rw [a1] at a2
      rw [Option.some.inj a2]
    · refine Nodup.of_map Prod.snd ?_
      rw [zipIdx_map_snd]
      exact nodup_range'
  · have hp : G.blocks.Pairwise fun X Y => X.id ≠ Y.id := pairwise_map.1 hn
    refine hp.imp ?_
    intro X Y hne
    rw [Function.onFun, disjoint_left]
    intro q h1 h2
    obtain ⟨p, _, rfl⟩ := mem_map.1 h1
    obtain ⟨p', _, e⟩ := mem_map.1 h2
    simp only [Prod.mk.injEq] at e
    exact hne e.2.1.symm

theorem mem_callSites {names : List String} {O : Obj} (hn : ∀ f F, O.fns f = some F → f ∈ names) {f : String}
    {q : Nat × String × Option String} :
    q ∈ callSites names O f ↔ ∃ C, O.comp q.2.2 = some C ∧ ∃ X ∈ C.body.blocks, X.id = q.2.1 ∧ ∃ i, (code X)[q.1]? = some i ∧ i.op = f := by
  unfold callSites
  rw [mem_flatMap]
  constructor
  · rintro ⟨c, hc, hq⟩
    cases hC : O.comp c with
    | none => rw [hC] at hq; cases hq
    | some C =>
      rw [hC] at hq
      obtain ⟨rfl, h1⟩ := mem_sitesOf.1 hq
      exact ⟨C, hC, h1⟩
  · rintro ⟨C, hC, h1⟩
    refine ⟨q.2.2, ?_, ?_⟩
    · cases hq : q.2.2 with
      | none => simp
      | some g =>
        rw [hq] at hC
        exact mem_cons_of_mem _ (mem_map_of_mem (hn g C hC))
    · rw [hC]
      exact mem_sitesOf.2 ⟨rfl, h1⟩

theorem nodup_callSites {names : List String} {O : Obj} (hnd : names.Nodup) (hs : ∀ c C, O.comp c = some C → Sane C.body) (f : String) :
    (callSites names O f).Nodup := by
  unfold callSites
  rw [nodup_flatMap]
  constructor
  · intro c _
    cases hC : O.comp c with
    | none => exact nodup_nil
    | some C => exact nodup_sitesOf (hs c C hC).coherent.ids
  · have hn : (none :: names.map some).Nodup := by
      rw [nodup_cons]
      refine ⟨by simp, hnd.map (fun a b e => Option.some.inj e)⟩
    refine Pairwise.imp ?_ hn
    intro c d hcd
    rw [Function.onFun, disjoint_left]
    intro q h1 h2
    cases hC : O.comp c with
    | none => rw [hC] at h1; cases h1
    | some C =>
      cases hD : O.comp d with
      | none => rw [hD] at h2; cases h2
      | some D =>
        rw [hC] at h1
        rw [hD] at h2
        exact hcd ((mem_sitesOf.1 h1).1.symm.trans (mem_sitesOf.1 h2).1)

/-- The position among all instructions of a block, of an instruction that is not a phi function. -/
theorem code_position {X : Block} (hX : X.instrs = phis X ++ code X) {p : Nat} {i : Instr} :
    (code X)[p]? = some i ↔ X.instrs[p + (phis X).length]? = some i := by
  have e : X.instrs[p + (phis X).length]? = (code X)[p]? := by
    conv_lhs => rw [hX]
    rw [getElem?_append_right (by omega), Nat.add_sub_cancel]
  rw [e]

theorem phi_position {X : Block} (hX : X.instrs = phis X ++ code X) {j : Nat} {i : Instr} (hj : X.instrs[j]? = some i) (hp : isPhi i = false) :
    (phis X).length ≤ j := by
  rcases Nat.lt_or_ge j (phis X).length with hlt | hge
  · rw [hX, getElem?_append_left hlt] at hj
    have := (mem_filter.1 (mem_of_getElem? hj)).2
    rw [hp] at this; cases this
  · exact hge

/-- Being called once in terms of the list of calls. -/
theorem calledOnce_iff {names : List String} {O : Obj} (ok : ObjOk O) (hn : ∀ f F, O.fns f = some F → f ∈ names) (hnd : names.Nodup)
    {f : String} (hf : f ≠ "PhiFunction") :
    CalledOnce O f ↔ ∃ q, callSites names O f = [q] := by
  have hmem : ∀ {c C x X}, O.comp c = some C → C.body.get x = some X → X ∈ C.body.blocks ∧ X.id = x := fun _ hX => ⟨get_mem hX, get_id hX⟩
  have hget : ∀ {c C X}, O.comp c = some C → X ∈ C.body.blocks → C.body.get X.id = some X := by
    intro c C X hC hX
    obtain ⟨Y, hY⟩ := get_isSome_iff.2 (mem_map_of_mem (f := (·.id)) hX)
    rwa [inj_on_of_nodup_map (ok.comps c C hC).sane.coherent.ids (get_mem hY) hX (get_id hY)] at hY
  -- a call gives a site, a site gives a call
  have toSite : ∀ {c x j}, Calls O f c x j → ∃ C X, O.comp c = some C ∧ C.body.get x = some X ∧ (phis X).length ≤ j ∧
      (j - (phis X).length, x, c) ∈ callSites names O f := by
    rintro c x j ⟨C, X, i, hC, hX, hj, ho⟩
    have hp : isPhi i = false := by unfold isPhi; rw [beq_eq_false_iff_ne, ho]; exact hf
    have hfst := (ok.comps c C hC).phisFirst x X hX
    have hle := phi_position hfst hj hp
    refine ⟨C, X, hC, hX, hle, (mem_callSites hn).2 ⟨C, hC, X, get_mem hX, get_id hX, i, ?_, ho⟩⟩
    rw [code_position hfst]
    simp only [Nat.sub_add_cancel hle]
    exact hj
  have toCall : ∀ {q}, q ∈ callSites names O f → ∃ C X, O.comp q.2.2 = some C ∧ C.body.get q.2.1 = some X ∧
      Calls O f q.2.2 q.2.1 (q.1 + (phis X).length) := by
    intro q hq
    obtain ⟨C, hC, X, hX, e, i, hi, ho⟩ := (mem_callSites hn).1 hq
    have hg := hget hC hX
    rw [e] at hg
    exact ⟨C, X, hC, hg, C, X, i, hC, hg, (code_position ((ok.comps _ C hC).phisFirst _ X hg)).1 hi, ho⟩
  constructor
  · rintro ⟨c, x, j, hc, hu⟩
    obtain ⟨C, X, hC, hX, hle, hq⟩ := toSite hc
    refine ⟨_, eq_singleton_of_nodup hq (nodup_callSites hnd (fun c C hC => (ok.comps c C hC).sane) f) ?_⟩
    intro q' hq'
    obtain ⟨C', X', hC', hX', hc'⟩ := toCall hq'
    obtain ⟨e1, e2, e3⟩ := hu _ _ _ hc'
    obtain ⟨p', x', c'⟩ := q'
    simp only at e1 e2 e3 hC' hX'
    subst e1; subst e2
    rw [hC] at hC'; obtain rfl := Option.some.inj hC'
    rw [hX] at hX'; obtain rfl := Option.some.inj hX'
    simp only [Prod.mk.injEq, and_true]
    omega
  · rintro ⟨q, hq⟩
    obtain ⟨C, X, hC, hX, hc⟩ := toCall (q := q) (by rw [hq]; simp)
    refine ⟨_, _, _, hc, ?_⟩
    intro c' x' j' hc'
    obtain ⟨C', X', hC', hX', hle, hq'⟩ := toSite hc'
    rw [hq, mem_singleton] at hq'
    subst hq'
    simp only at hC hX
    rw [hC] at hC'; obtain rfl := Option.some.inj hC'
    rw [hX] at hX'; obtain rfl := Option.some.inj hX'
    refine ⟨rfl, rfl, ?_⟩
    simp only
    omega

end Grey.Inline
