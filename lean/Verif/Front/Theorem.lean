/-
From source objects to programs: C63.
-/
import Verif.Front.Combine
import Verif.Lower.Theorem
namespace Grey.Front
open List Grey.Cfg Grey.Inline Grey.Prep Grey.Lower

/-! ### Model -/

/-- src/cfg_methods/preprocessing_methods.py:18-47 for one object whose functions are `names` (in the order of the dictionary): rename
variables, inline functions, combine blocks, insert jumps and tags, and split blocks at calls. The result is what the layout generation
works on: the functions that are left, the object, and the tags. -/
def frontEnd (names order : List String) (O : Obj) : Option (List String × Obj × TagDict) :=
  (preprocess names order O).bind fun O1 =>
    (lower (names.filter fun f => (O1.fns f).isSome) O1).map fun r => (names.filter fun f => (O1.fns f).isSome, r)

/-! ### Proofs -/

/-- The instruction has the operation of an instruction of the source, as many arguments and results, and constants where it has. -/
def FromSource (O : Obj) (i : Instr) : Prop :=
  ∃ c C x X i0, O.comp c = some C ∧ C.body.get x = some X ∧ i0 ∈ code X ∧ i.op = i0.op ∧ i.ins.length = i0.ins.length ∧ i.outs.length = i0.outs.length ∧
    ((∀ v ∈ i0.ins, Cfg.isConst v = true) → ∀ v ∈ i.ins, Cfg.isConst v = true)

theorem fromSource_rename {O : Obj} (r : String → String) (hr : ∀ x, Cfg.isConst x = true → r x = x) (i : Instr) (h : FromSource O i) :
    FromSource O (renameInstr r i) := by
  obtain ⟨c, C, x, X, i0, h1, h2, h3, h4, h5, h6, h7⟩ := h
  refine ⟨c, C, x, X, i0, h1, h2, h3, h4, by simpa [renameInstr] using h5, by simpa [renameInstr] using h6, ?_⟩
  intro h8 v hv
  obtain ⟨w, hw, rfl⟩ := mem_map.1 (show v ∈ i.ins.map r from hv)
  rw [hr w (h7 h8 w hw)]
  exact h7 h8 w hw

section
variable {names : List String} {O : Obj} (K : Compilable names O)
include K

theorem newName_neat {c : Option String} {C : Component} (hC : O.comp c = some C) {x : String} (hx : x ∈ C.defs ∨ Cfg.isConst x = true) :
    Neat (newNameOf names O c x) := by
  cases hc : Cfg.isConst x with
  | true =>
    rw [show newNameOf names O c x = x from renaming_constants _ _ x hc]
    exact Or.inl hc
  | false =>
    have hd : x ∈ C.defs := by
      rcases hx with h | h
      · exact h
      · rw [hc] at h; cases h
    unfold newNameOf newName
    rw [components_get K.fns hC]
    simp only [renameVar, hc, Bool.false_eq_true, if_false]
    rcases renamingDict_spec C.defs ((((components names O).take (compIdx names c)).map fun c => c.defs.length).sum) (fun _ => none) x with ⟨_, h⟩ | ⟨k, h, _⟩
    · exact absurd hd h
    · rw [h]
      exact Or.inr ⟨_, rfl⟩

theorem rename_part {r : String → String} {c : Option String} {C : Component} (hC : O.comp c = some C) :
    Part names (fun f => ∃ F, O.fns f = some F ∧ Returns F) c.isNone (renameComp r C).body := by
  have hsucc : ∀ x, (renameComp r C).body.succ x = C.body.succ x := by
    intro x
    unfold BlockList.succ
    cases hX : C.body.get x with
    | none =>
      have : (renameComp r C).body.get x = none := by
        cases hY : (renameComp r C).body.get x with
        | none => rfl
        | some Y =>
          obtain ⟨X, h, _⟩ := rename_get hY
          rw [hX] at h; cases h
      rw [this]
    | some X => rw [get_renamed hX]; rfl
  have hse : (renameComp r C).body.succ = C.body.succ := funext hsucc
  refine ⟨?_, ?_, ?_, ?_, ?_⟩
  · intro x X' hX' j i' hj
    obtain ⟨X, hX, rfl⟩ := rename_get hX'
    have hj' : (X.instrs.map (renameInstr r))[j]? = some i' := hj
    rw [getElem?_map] at hj'
    obtain ⟨i, hi, rfl⟩ := Option.map_eq_some_iff.1 hj'
    have hlen : (renameBlock r X).instrs.length = X.instrs.length := by
      show (X.instrs.map (renameInstr r)).length = _
      rw [length_map]
    have hlt := (List.getElem?_eq_some_iff.1 hi).1
    have hsplit : X.instrs = X.instrs.take j ++ i :: X.instrs.drop (j + 1) := by
      rw [← (List.getElem?_eq_some_iff.1 hi).2]; simp
    have hlast : X.instrs.drop (j + 1) = [] ↔ j + 1 = X.instrs.length := by rw [drop_eq_nil_iff]; omega
    rw [hlen, rename_succs, ← hlast]
    refine ⟨fun ho => K.ends c C hC x X hX _ i _ hsplit ho, fun ho => ?_, K.ops c C hC x X hX i (mem_of_getElem? hi)⟩
    obtain ⟨F, hF⟩ := (K.fns _).1 ho
    rw [← K.tails c C hC x X hX _ i _ F hsplit hF]
    have hF' : O.fns (renameInstr r i).op = some F := hF
    constructor
    · intro h1 h2; exact h1 ⟨F, hF, h2⟩
    · rintro h1 ⟨F2, h2, h3⟩
      rw [hF'] at h2
      cases h2
      exact h1 h3
  · intro x X' hX' hp
    obtain ⟨X, hX, rfl⟩ := rename_get hX'
    refine K.phiEntries c C hC x X hX ?_
    intro h0
    rw [phis_rename, h0] at hp
    exact hp rfl
  · intro x X' hX'
    obtain ⟨X, hX, rfl⟩ := rename_get hX'
    obtain ⟨hk, hns⟩ := K.kinds c C hC x X hX
    have hk' : Kind c.isNone X := by
      rcases hk with h1 | h1 | h1 | h1 | h1
      · exact Or.inl h1
      · exact Or.inr (Or.inl h1)
      · exact Or.inr (Or.inr (Or.inl h1))
      · exact Or.inr (Or.inr (Or.inr (Or.inl h1)))
      · exact absurd h1.1 hns
    refine hk'.congr rfl rfl rfl ?_ ?_
    · show (X.cond.map r).isSome = _
      rw [Option.isSome_map]
    · rintro - ⟨i, h3, h4⟩
      refine ⟨renameInstr r i, ?_, h4⟩
      show (X.instrs.map (renameInstr r)).getLast? = _
      rw [getLast?_map, h3]; rfl
  · intro s hs x X' hX'
    obtain ⟨X, hX, rfl⟩ := rename_get hX'
    rw [hse]
    exact Or.inl (K.reach c C hC s hs x X hX)
  · intro x X' hX' h1 h2
    obtain ⟨X, hX, rfl⟩ := rename_get hX'
    rw [rename_succs] at h1
    have h2' : X.instrs.map (renameInstr r) = [] := h2
    exact absurd (map_eq_nil_iff.1 h2') (K.full c C hC x X hX h1)

/-- The renamed object. -/
theorem mid_renamed : Mid names (fun f => ∃ F, O.fns f = some F ∧ Returns F) (FromSource O) (renameObj names O) := by
  obtain ⟨-, -, r3⟩ := renaming_preserves K.fns K.source
  have comp : ∀ {c C'}, (renameObj names O).comp c = some C' → ∃ C, O.comp c = some C ∧ C' = renameComp (newNameOf names O c) C := by
    intro c C' h
    rw [r3] at h
    obtain ⟨C, hC, e⟩ := Option.map_eq_some_iff.1 h
    exact ⟨C, hC, e.symm⟩
  have hconst : ∀ c x, Cfg.isConst x = true → newNameOf names O c x = x := fun c x hx => renaming_constants _ _ x hx
  refine ⟨?_, ?_, ?_, ?_, ?_, ?_, ?_, ?_, ?_⟩
  · intro c C' hC'
    obtain ⟨C, hC, rfl⟩ := comp hC'
    exact rename_tidy (K.tidy c C hC)
  · intro c C' hC'
    obtain ⟨C, hC, rfl⟩ := comp hC'
    exact rename_part K hC
  · intro c C' hC' x X' z hX' hj
    obtain ⟨C, hC, rfl⟩ := comp hC'
    obtain ⟨X, hX, rfl⟩ := rename_get hX'
    exact absurd hj (K.kinds c C hC x X hX).2
  · intro c C' hC' s T' hs hT' h1 h2
    obtain ⟨C, hC, rfl⟩ := comp hC'
    obtain ⟨T, hT, rfl⟩ := rename_get hT'
    rw [rename_succs] at h1
    have h2' : T.instrs.map (renameInstr (newNameOf names O c)) = [] := h2
    exact K.full c C hC s T hT h1 (map_eq_nil_iff.1 h2')
  · intro f F' hF'
    obtain ⟨F, hF, rfl⟩ := comp (c := some f) hF'
    exact (K.fns f).2 ⟨F, hF⟩
  · intro f F' hF'
    obtain ⟨F, hF, rfl⟩ := comp (c := some f) hF'
    have hF0 : O.fns f = some F := hF
    constructor
    · rintro ⟨x, X', hX', hj⟩
      obtain ⟨X, hX, rfl⟩ := rename_get hX'
      exact ⟨F, hF, x, X, hX, hj⟩
    · rintro ⟨F2, h1, x, X, hX, hj⟩
      rw [hF0] at h1
      cases h1
      exact ⟨x, _, get_renamed hX, hj⟩
  · intro c C' hC' x X' hX' i' hi ho
    exact (rename_fns K.fns K.source).2 ((K.fns _).1 ho)
  · intro c C' hC' x X' hX' i' hi hp
    obtain ⟨C, hC, rfl⟩ := comp hC'
    obtain ⟨X, hX, rfl⟩ := rename_get hX'
    obtain ⟨i, hi0, rfl⟩ := mem_map.1 (show i' ∈ X.instrs.map (renameInstr (newNameOf names O c)) from hi)
    refine fromSource_rename _ (hconst c) i ⟨c, C, x, X, i, hC, hX, mem_filter.2 ⟨hi0, ?_⟩, rfl, rfl, rfl, fun h => h⟩
    have hp' : isPhi i = false := hp
    rw [hp']; rfl
  · intro c C' hC' v hv
    obtain ⟨C, hC, rfl⟩ := comp hC'
    rw [rename_names] at hv
    rcases mem_append.1 hv with h1 | h1
    · obtain ⟨w, hw, rfl⟩ := mem_map.1 (show v ∈ C.args.map (newNameOf names O c) from h1)
      exact newName_neat K hC (Or.inl (mem_append.2 (Or.inl hw)))
    · obtain ⟨w, hw, rfl⟩ := mem_map.1 h1
      refine newName_neat K hC ?_
      cases hcw : Cfg.isConst w with
      | true => exact Or.inr rfl
      | false => exact Or.inl (K.source.closed c C hC w hw hcw)

theorem ending_renamed (E : Ending names O) : Ending names (renameObj names O) := by
  obtain ⟨-, -, r3⟩ := renaming_preserves K.fns K.source
  have comp : ∀ {c C'}, (renameObj names O).comp c = some C' → ∃ C, O.comp c = some C ∧ C' = renameComp (newNameOf names O c) C := by
    intro c C' h
    rw [r3] at h
    obtain ⟨C, hC, e⟩ := Option.map_eq_some_iff.1 h
    exact ⟨C, hC, e.symm⟩
  refine ⟨?_, ?_, ?_⟩
  · intro c C' hC' x X' hX'
    obtain ⟨C, hC, rfl⟩ := comp hC'
    obtain ⟨X, hX, rfl⟩ := rename_get hX'
    exact E.exact c C hC x X hX
  · intro c C' hC' x X' hX' hj
    obtain ⟨C, hC, rfl⟩ := comp hC'
    obtain ⟨X, hX, rfl⟩ := rename_get hX'
    show X.instrs.map (renameInstr (newNameOf names O c)) = [] ∨ ∃ i, (X.instrs.map (renameInstr (newNameOf names O c))).getLast? = some i ∧ _
    rcases E.terminal c C hC x X hX hj with h1 | ⟨i, h1, h2⟩
    · rw [h1]; exact Or.inl rfl
    · exact Or.inr ⟨renameInstr (newNameOf names O c) i, by rw [getLast?_map, h1]; rfl, h2⟩
  · intro c C' hC' x X' hX' hj i hi
    obtain ⟨C, hC, rfl⟩ := comp hC'
    obtain ⟨X, hX, rfl⟩ := rename_get hX'
    have hi' : (X.instrs.map (renameInstr (newNameOf names O c))).getLast? = some i := hi
    rw [getLast?_map] at hi'
    obtain ⟨j, hj', rfl⟩ := Option.map_eq_some_iff.1 hi'
    exact E.mainExit c C hC x X hX hj j hj'

end

theorem phi_outs_nodup {C : Component} (h : StrictSSA C) {x : String} {X : Block} (hX : C.body.get x = some X) : ((phis X).flatMap (·.outs)).Nodup := by
  have h1 : (X.instrs.flatMap (·.outs)).Nodup := by
    have h2 := (nodup_append.1 h.once).2.1
    rw [nodup_flatMap] at h2
    exact h2.1 X (get_mem hX)
  have key : ∀ l : List Instr, (l.filter isPhi).flatMap (·.outs) <+ l.flatMap (·.outs) := by
    intro l
    induction l with
    | nil => exact Sublist.refl _
    | cons i l ih =>
      rw [filter_cons]
      split
      · rw [flatMap_cons, flatMap_cons]
        exact (Sublist.refl _).append ih
      · rw [flatMap_cons]
        exact ih.trans (sublist_append_right _ _)
  exact (key X.instrs).nodup h1

section
variable {names order : List String} {O : Obj} (K : Compilable names O)
include K

/-- After renaming, inlining and combining, the object can be lowered. -/
theorem preprocessed_lowerable (ho : CalleesFirst O order) : ∃ O', preprocess names order O = some O' ∧ SameRuns O O' ∧
    (∀ f ∈ names, (O'.fns f = none ↔ CalledOnce O f)) ∧ Lowerable (names.filter fun f => (O'.fns f).isSome) O' ∧
    (∀ c C, O'.comp c = some C → ∀ x X, C.body.get x = some X → ∀ i ∈ code X, FromSource O i ∧ (i.op ∈ names → ∃ F, O'.fns i.op = some F)) ∧
    (Ending names O → ∀ c C, O'.comp c = some C → FineComp (names.filter fun f => (O'.fns f).isSome) C) := by
  obtain ⟨r1, r2, r3⟩ := renaming_preserves K.fns K.source
  have hphi : "PhiFunction" ∉ names := fun h => absurd (K.names _ h) (by decide)
  obtain ⟨O1, i1, i2, i3, i4, M, hE⟩ := inlining_pass_keeps (ending_kept hphi fromSource_rename (Ending names O)) r2 ⟨mid_renamed K, ending_renamed K⟩ K.nodup
    (fun f => (K.fns f).trans (rename_fns K.fns K.source).symm) (rename_order K.fns K.source ho)
  have hns : ∀ f, f ∈ (names.filter fun f => (O1.fns f).isSome) ↔ ∃ F, O1.fns f = some F := by
    intro f
    rw [mem_filter, Option.isSome_iff_exists]
    exact ⟨fun h => h.2, fun ⟨F, hF⟩ => ⟨M.fns f F hF, F, hF⟩⟩
  obtain ⟨O2, c1, c2, c3⟩ := combining_preserves (names := names.filter fun f => (O1.fns f).isSome) (O := O1) (K.nodup.filter _) hns
    fun c C hC => ⟨(i3.comps c C hC).sane, M.tidy c C hC⟩
  have hargs : ∀ f, (O2.fns f).map (·.args) = (O1.fns f).map (·.args) := fun f => (c3 (some f)).1
  have hsome : ∀ f, (O2.fns f).isSome = (O1.fns f).isSome := by
    intro f
    have := congrArg Option.isSome (hargs f)
    rwa [Option.isSome_map, Option.isSome_map] at this
  have hex : ∀ f, (∃ F, O1.fns f = some F) → ∃ F, O2.fns f = some F := by
    intro f hF
    rw [← Option.isSome_iff_exists] at hF ⊢
    rw [hsome]; exact hF
  have hfilter : (names.filter fun f => (O2.fns f).isSome) = names.filter fun f => (O1.fns f).isSome := by
    congr 1; funext f; exact hsome f
  -- the components before combining
  have whole1 : ∀ c C, O1.comp c = some C → Whole names (fun f => ∃ F, O.fns f = some F ∧ Returns F) c.isNone
      (fun i => (isPhi i = false → FromSource O i) ∧ (i.op ∈ names → ∃ F, O1.fns i.op = some F) ∧ (∀ x ∈ i.ins ++ i.outs, Plain x) ∧
        ∀ x ∈ i.outs, Cfg.isConst x = false) Plain (Returns C) C.body := by
    intro c C hC
    have ok := i3.comps c C hC
    have hplain : ∀ v ∈ C.args ++ C.body.names, Plain v := fun v hv => Neat.plain (M.neat c C hC v hv)
    refine ⟨M.part c C hC, fun x X hX i hi => ok.ssa.shape x X i hX hi, ok.phisFirst, fun x X hX => phi_outs_nodup ok.ssa hX, ok.onlyReturns, ok.noSelf,
      ?_, ?_, fun x X hX v hv => hplain v (Site.cond_names hX hv), Iff.rfl⟩
    · intro s T hs hT
      by_contra hne
      obtain ⟨p, _, _, h1, _⟩ := (M.tidy c C hC).joins s T hT hne
      exact (M.tidy c C hC).entry s p hs h1
    · intro x X hX i hi
      refine ⟨M.src c C hC x X hX i hi, M.ops c C hC x X hX i hi, fun v hv => hplain v (Site.instr_names hX hi hv), fun v hv => ?_⟩
      exact ok.ssa.noConst v (outs_mem_defs hX hi hv)
  -- the components after combining
  have back : ∀ c C', O2.comp c = some C' → ∃ C, O1.comp c = some C ∧ C'.args = C.args ∧
      combineRemove (names.filter fun f => (O1.fns f).isSome) C.body = some C'.body := by
    intro c C' hC'
    have h1 := (c3 c).1
    rw [hC'] at h1
    cases hC : O1.comp c with
    | none => rw [hC] at h1; cases h1
    | some C =>
      rw [hC] at h1
      obtain ⟨D, hD, he⟩ := (c3 c).2 C hC
      rw [hC'] at hD
      cases hD
      exact ⟨C, rfl, by simpa using h1, he⟩
  have comb := fun (c : Option String) (C C' : Component) (hC : O1.comp c = some C)
      (he : combineRemove (names.filter fun f => (O1.fns f).isSome) C.body = some C'.body) => combine_whole (i3.comps c C hC).sane (M.tidy c C hC) he (whole1 c C hC) (by
      intro x X hX i hi
      have hk := ((M.part c C hC).placed x X hX (X.instrs.idxOf i) i (by
        rw [getElem?_eq_getElem (idxOf_lt_length_of_mem hi), getElem_idxOf])).known
      by_cases h1 : i.op ∈ names.filter fun f => (O1.fns f).isSome
      · exact Or.inr h1
      · left
        intro h2
        rcases mem_append.1 h2 with h3 | h3
        · exact h1 h3
        · apply hk
          simp only [mem_cons, not_mem_nil, or_false] at h3 ⊢
          tauto) (M.chain c C hC)
  have hret : ∀ f F', O2.fns f = some F' → (Returns F' ↔ ∃ F, O.fns f = some F ∧ Returns F) := by
    intro f F' hF'
    obtain ⟨F, hF, _, he⟩ := back (some f) F' hF'
    obtain ⟨-, W, -, -⟩ := comb (some f) F F' hF he
    exact W.returns.trans (M.rets f F hF)
  refine ⟨O2, by unfold preprocess; rw [i1, Option.bind_some, c1], (r1.trans i2).trans c2, ?_, ?_, ?_, ?_⟩
  · intro f hf
    rw [← rename_once K.fns K.source, ← i4 f hf]
    have h := hargs f
    constructor
    · intro h0; rw [h0] at h; simpa using h.symm
    · intro h0; rw [h0] at h; simpa using h
  · rw [hfilter]
    refine ⟨K.nodup.filter _, ?_, ?_, ?_, ?_, ?_, ?_, ?_, ?_, ?_⟩
    · intro f
      rw [hns, ← Option.isSome_iff_exists, ← Option.isSome_iff_exists, hsome]
    · intro c C' hC'
      obtain ⟨C, hC, _, he⟩ := back c C' hC'
      exact (comb c C C' hC he).1
    · intro c C' hC'
      obtain ⟨C, hC, _, he⟩ := back c C' hC'
      exact (comb c C C' hC he).2.1.noSelf
    · intro c C' hC'
      obtain ⟨C, hC, _, he⟩ := back c C' hC'
      exact combineRemove_exits he (i3.comps c C hC).exits
    · intro c C' hC'
      obtain ⟨C, hC, _, he⟩ := back c C' hC'
      exact (comb c C C' hC he).2.1.start
    · intro c C' hC' x X hX
      obtain ⟨C, hC, _, he⟩ := back c C' hC'
      obtain ⟨-, W, -, hsub, -⟩ := comb c C C' hC he
      have hat : ∀ l i l', X.instrs = l ++ i :: l' → X.instrs[l.length]? = some i ∧ (l' = [] ↔ l.length + 1 = X.instrs.length) := by
        intro l i l' e
        rw [e]
        refine ⟨by simp, ?_⟩
        rw [length_append, length_cons, ← length_eq_zero_iff]
        omega
      refine ⟨⟨W.first x X hX, W.shape x X hX, W.outs x X hX, W.part.phiEntries x X hX, ?_, ?_, ?_, ?_, ?_, W.conds x X hX, ?_⟩, ?_⟩
      · intro l i l' e ho
        obtain ⟨h1, h2⟩ := hat l i l' e
        obtain ⟨h3, h4⟩ := W.onlyReturns x X hX _ i h1 ho
        exact ⟨h2.2 h4, h3⟩
      · intro l i l' e ho
        obtain ⟨h1, h2⟩ := hat l i l' e
        obtain ⟨h3, h4⟩ := (W.part.placed x X hX _ i h1).halt ho
        exact ⟨h2.2 h3, succs_nil.1 h4⟩
      · intro l i l' F e hF
        obtain ⟨h1, h2⟩ := hat l i l' e
        have hin : i.op ∈ names := by
          refine (mem_filter.1 ((hns i.op).2 ?_)).1
          rw [← Option.isSome_iff_exists, ← hsome, hF]; rfl
        rw [hret i.op F hF, h2, ← succs_nil]
        exact (W.part.placed x X hX _ i h1).call hin
      · intro i hi
        exact (W.part.placed x X hX (X.instrs.idxOf i) i (by rw [getElem?_eq_getElem (idxOf_lt_length_of_mem hi), getElem_idxOf])).known
      · exact fun i hi => (W.instrs x X hX i hi).2.2.1
      · exact fun i hi => (W.instrs x X hX i hi).2.2.2
      · rcases W.part.kinds x X hX with h1 | h1 | h1 | h1 | ⟨h1, h2, h3⟩
        · exact Or.inl h1
        · exact Or.inr (Or.inl h1)
        · exact Or.inr (Or.inr (Or.inl h1))
        · exact Or.inr (Or.inr (Or.inr (Or.inl h1)))
        · obtain ⟨i, h4, h5⟩ := hsub x X hX h1
          obtain ⟨F, hF⟩ := hex i.op ((hns i.op).1 h5)
          exact Or.inr (Or.inr (Or.inr (Or.inr ⟨h1, h2, h3, i, F, h4, hF⟩)))
    · intro f F' hF' x hx
      obtain ⟨F, hF, ha, _⟩ := back (some f) F' hF'
      rw [ha] at hx
      refine ⟨Neat.plain (M.neat (some f) F hF x (mem_append.2 (Or.inl hx))), ?_⟩
      exact (i3.comps (some f) F hF).ssa.noConst x (mem_append.2 (Or.inl hx))
    · intro c d C' D' hC' hD' x y X Y hX hY
      obtain ⟨C, hC, _, he⟩ := back c C' hC'
      obtain ⟨D, hD, _, he'⟩ := back d D' hD'
      obtain ⟨X0, hX0⟩ := (comb c C C' hC he).2.2.1 x X hX
      obtain ⟨Y0, hY0⟩ := (comb d D D' hD he').2.2.1 y Y hY
      exact i3.names c d C D hC hD x y X0 Y0 hX0 hY0
    · intro f hf
      exact K.names f (mem_filter.1 hf).1
  · intro c C' hC' x X hX i hi
    obtain ⟨C, hC, _, he⟩ := back c C' hC'
    obtain ⟨-, W, -, -⟩ := comb c C C' hC he
    obtain ⟨h1, h2, _⟩ := W.instrs x X hX i (mem_filter.1 hi).1
    refine ⟨h1 (by have := (mem_filter.1 hi).2; simpa using this), fun h3 => hex i.op (h2 h3)⟩
  · intro hE0 c C' hC'
    have E1 := hE hE0
    rw [hfilter]
    obtain ⟨C, hC, ha, he⟩ := back c C' hC'
    have ok := i3.comps c C hC
    have hneat := M.neat c C hC
    have hone := nodup_append.1 ok.ssa.once
    have hfine : Fine (names.filter fun f => (O1.fns f).isSome) True C.body := ?_
    · obtain ⟨f1, f2⟩ := (comb c C C' hC he).2.2.2.2 hfine
      refine ⟨f1, by rw [ha]; exact hone.1, by rw [ha]; exact fun v hv => hneat v (mem_append.2 (Or.inl hv)), ?_⟩
      have := f2 C.args (defined_of_ssa ok.ssa)
      rw [← ha] at this
      exact this
    refine ⟨E1.exact c C hC, ?_, ?_, ?_, ?_, ?_, ?_, ?_, ?_, ?_, ?_⟩
    · intro x X hX hp
      obtain ⟨p, q, hpq, h1, h2⟩ := (M.tidy c C hC).joins x X hX hp
      have hmem : ∀ r, x ∈ C.body.succ r → r ∈ X.comesFrom := by
        intro r hr
        obtain ⟨Y, hY, hr⟩ := mem_succ.1 hr
        exact (ok.sane.coherent.edges r x Y X hY hX).2 hr
      have hp' := hmem p h1
      have hq' := hmem q h2
      rcases hl : X.comesFrom with _ | ⟨u, _ | ⟨v, l⟩⟩
      · rw [hl] at hp'; cases hp'
      · rw [hl, mem_singleton] at hp' hq'
        exact absurd (hp'.trans hq'.symm) hpq
      · simp
    · intro s S hs hS
      refine ⟨?_, M.startFull c C hC s S hs hS⟩
      rw [eq_nil_iff_forall_not_mem]
      intro p hp
      obtain ⟨P, hP⟩ := ok.sane.coherent.preds s S hS p hp
      exact (M.tidy c C hC).entry s p hs (mem_succ.2 ⟨P, hP, (ok.sane.coherent.edges p s P S hP hS).1 hp⟩)
    · intro x X hX
      have h2 := hone.2.1
      rw [nodup_flatMap] at h2
      exact h2.1 X (get_mem hX)
    · intro x y X Y hX hY hxy i hi j hj v hv hw
      have h2 := hone.2.1
      rw [nodup_flatMap] at h2
      obtain ⟨m, hm⟩ := mem_iff_getElem?.1 (get_mem hX)
      obtain ⟨n, hn⟩ := mem_iff_getElem?.1 (get_mem hY)
      have hmn : m ≠ n := by
        rintro rfl
        rw [hm] at hn
        cases hn
        exact hxy ((get_id hX).symm.trans (get_id hY))
      have hdis := pairwise_iff_getElem.1 h2.2
      obtain ⟨hm1, hm2⟩ := List.getElem?_eq_some_iff.1 hm
      obtain ⟨hn1, hn2⟩ := List.getElem?_eq_some_iff.1 hn
      have hv' : v ∈ X.instrs.flatMap (·.outs) := mem_flatMap.2 ⟨i, hi, hv⟩
      have hw' : v ∈ Y.instrs.flatMap (·.outs) := mem_flatMap.2 ⟨j, hj, hw⟩
      rcases Nat.lt_or_gt_of_ne hmn with hlt | hlt
      · have := hdis m n hm1 hn1 hlt
        rw [hm2, hn2] at this
        exact this hv' hw'
      · have := hdis n m hn1 hm1 hlt
        rw [hm2, hn2] at this
        exact this hw' hv'
    · intro x X z Z hX hj hz hZ
      have hch := M.chain c C hC x X z hX hj hz
      have hx : x ∈ Z.comesFrom := (ok.sane.coherent.edges x z X Z hX hZ).2 (mem_succs.2 (Or.inr hz))
      have hall : ∀ p ∈ Z.comesFrom, p = x := by
        intro p hp
        obtain ⟨P, hP⟩ := ok.sane.coherent.preds z Z hZ p hp
        exact hch p (mem_succ.2 ⟨P, hP, (ok.sane.coherent.edges p z P Z hP hZ).1 hp⟩)
      have hnd : Z.comesFrom.Nodup := ok.sane.coherent.once z Z hZ
      rcases hl : Z.comesFrom with _ | ⟨u, _ | ⟨v, l⟩⟩
      · rw [hl] at hx; cases hx
      · rw [hall u (by rw [hl]; simp)]
      · rw [hl] at hnd
        rw [hall u (by rw [hl]; simp), hall v (by rw [hl]; simp)] at hnd
        simp at hnd
    · intro x X hX hj
      rcases (M.part c C hC).kinds x X hX with ⟨h1, _⟩ | ⟨h1, _⟩ | ⟨h1, _⟩ | ⟨_, h1⟩ | ⟨h1, _⟩
      · rw [h1] at hj; exact absurd hj (by decide)
      · rw [h1] at hj; exact absurd hj (by decide)
      · rw [h1] at hj; exact absurd hj (by decide)
      · exact h1
      · rw [h1] at hj; exact absurd hj (by decide)
    · intro x X hX hj
      rcases E1.terminal c C hC x X hX hj with h1 | ⟨i, h1, h2⟩
      · exact Or.inl ⟨trivial, h1⟩
      · refine Or.inr ⟨i, h1, ?_⟩
        rcases mem_append.1 h2 with h3 | h3
        · exact mem_append.2 (Or.inl h3)
        · exact mem_append.2 (Or.inr ((hns i.op).2 (M.ops c C hC x X hX i (mem_of_getLast? h1) h3)))
    · intro x X hX hj i hi h1
      refine E1.mainExit c C hC x X hX hj i hi ?_
      rcases mem_append.1 h1 with h3 | h3
      · exact mem_append.2 (Or.inl h3)
      · exact mem_append.2 (Or.inr (mem_filter.1 h3).1)
    · exact fun x X hX i hi v hv => hneat v (Site.instr_names hX hi hv)
    · exact fun x X hX v hv => hneat v (Site.cond_names hX hv)

end

/-- The operations of the object after the front end's first phases are those of the source. -/
theorem source_op {names : List String} {O O1 : Obj}
    (p5 : ∀ c C, O1.comp c = some C → ∀ x X, C.body.get x = some X → ∀ i ∈ code X, FromSource O i ∧ (i.op ∈ names → ∃ F, O1.fns i.op = some F))
    {c : Option String} {C : Component} {x : String} {X : Block} {i : Instr} (hC : O1.comp c = some C) (hX : C.body.get x = some X) (hi : i ∈ code X) :
    ∃ c0 C0 x0 X0 i0, O.comp c0 = some C0 ∧ C0.body.get x0 = some X0 ∧ i0 ∈ code X0 ∧ i.op = i0.op ∧ i.ins.length = i0.ins.length ∧
      i.outs.length = i0.outs.length ∧ ((∀ v ∈ i0.ins, Cfg.isConst v = true) → ∀ v ∈ i.ins, Cfg.isConst v = true) ∧
      (i.op ∉ ["functionReturn"] ++ haltOps ++ (names.filter fun f => (O1.fns f).isSome) → i0.op ∉ ["functionReturn"] ++ haltOps ++ names) := by
  obtain ⟨⟨c0, C0, x0, X0, i0, q1, q2, q3, q4, q5, q6, q7⟩, q8⟩ := p5 c C hC x X hX i hi
  refine ⟨c0, C0, x0, X0, i0, q1, q2, q3, q4, q5, q6, q7, fun hop => ?_⟩
  rw [← q4]
  intro h1
  rcases mem_append.1 h1 with h2 | h2
  · exact hop (mem_append.2 (Or.inl h2))
  · obtain ⟨F, hF⟩ := q8 h2
    exact hop (mem_append.2 (Or.inr (mem_filter.2 ⟨h2, by rw [hF]; rfl⟩)))

theorem ops_after {V σ : Type} {names : List String} {O O1 : Obj} {I : Sfs.Interp V σ} {dec : String → String × Option (List String)}
    (p5 : ∀ c C, O1.comp c = some C → ∀ x X, C.body.get x = some X → ∀ i ∈ code X, FromSource O i ∧ (i.op ∈ names → ∃ F, O1.fns i.op = some F))
    (hI : OpsOk names dec I O) : OpsOk (names.filter fun f => (O1.fns f).isSome) dec I O1 := by
  refine ⟨?_, ?_, hI.tag⟩
  · intro o ho
    refine hI.known o ?_
    rcases mem_append.1 ho with h1 | h1
    · exact mem_append.2 (Or.inl h1)
    · exact mem_append.2 (Or.inr (mem_filter.1 h1).1)
  · intro c C x X i hC hX hi hop
    obtain ⟨c0, C0, x0, X0, i0, q1, q2, q3, q4, q5, q6, q7, q8⟩ := source_op p5 hC hX hi
    obtain ⟨a1, a2, a3⟩ := hI.other c0 C0 x0 X0 i0 q1 q2 q3 (q8 hop)
    rw [← q4] at a1 a2 a3
    rw [← q5, ← q6] at a2
    exact ⟨a1, a2, fun h1 => q7 (a3 h1)⟩

section
variable {names order : List String} {O : Obj} (K : Compilable names O)
include K

/-- **C63.** The front end (renaming of variables, inlining, combining of blocks, jumps and tags, splitting at calls) succeeds on every
compilable object when functions are inlined callees first. Functions that are called once disappear, all others stay. The resulting
program ends exactly as the object the parser has built does, and gets stuck exactly if that object does: from every initial world, whatever the
operations mean and whatever the analyses before the layout generation say. -/
theorem front_end_preserves (ho : CalleesFirst O order) : ∃ names' O' T, frontEnd names order O = some (names', O', T) ∧
    (∀ f, f ∈ names' ↔ f ∈ names ∧ ¬ CalledOnce O f) ∧
    ∀ (V σ : Type) (I : Sfs.Interp V σ) (dec : String → String × Option (List String)) (main : String) (A : Option String → Analysis),
      OpsOk names dec I O → main ∉ names ++ haltOps → ∀ w, RunsLike I dec (toProg names' dec main A O') (entry I main O' w) O w := by
  obtain ⟨O1, p1, p2, p3, p4, p5, -⟩ := preprocessed_lowerable K ho
  obtain ⟨O2, T, l1, l2⟩ := lowering_preserves_program p4
  refine ⟨_, O2, T, by unfold frontEnd; rw [p1, Option.bind_some, l1]; rfl, ?_, ?_⟩
  · intro f
    rw [mem_filter]
    refine and_congr_right fun hf => ?_
    rw [← p3 f hf]
    exact Option.isSome_iff_ne_none
  · intro V σ I dec main A hI hm w
    have hsub : ∀ f, f ∈ (names.filter fun f => (O1.fns f).isSome) → f ∈ names := fun f hf => (mem_filter.1 hf).1
    have hI' := ops_after p5 hI
    have hm' : main ∉ (names.filter fun f => (O1.fns f).isSome) ++ haltOps := by
      intro h1
      rcases mem_append.1 h1 with h2 | h2
      · exact hm (mem_append.2 (Or.inl (hsub main h2)))
      · exact hm (mem_append.2 (Or.inr h2))
    obtain ⟨e1, e2⟩ := l2 V σ I dec main A hI' hm' w
    obtain ⟨b1, b2⟩ := p2 V _ (meaning I dec) (zeros I) (w, none)
    refine ⟨fun h => (e1 h).trans ?_, e2.trans b2.symm⟩
    constructor
    · rintro ⟨s, h1, h2⟩; exact ⟨s, (b1 s).2 h1, h2⟩
    · rintro ⟨s, h1, h2⟩; exact ⟨s, (b1 s).1 h1, h2⟩

end

end Grey.Front
