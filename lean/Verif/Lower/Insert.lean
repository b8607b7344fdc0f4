/-
The insertion of jumps and tags decorates the object.
-/
import Verif.Lower.Loop
import Verif.Inline.Check
import Verif.Inline.PassProof
namespace Grey.Lower
open List Grey.Cfg Grey.Inline Grey.Prep

section
variable {names : List String} {O : Obj}

/-- The jumps of one block. -/
theorem insertJump_deco (H : Obj) {ret : Option String} {m : Bool} {X : Block} (hk : KindOk O m X) (hfns : ∀ f F, O.fns f = some F → f ∈ names) (hret : X.jumpType = "FunctionReturn" → ret ≠ none)
    {T : TagDict} (hT : GoodTags T) :
    ∃ D T', insertJump ret X T = some ({ X with instrs := D }, T') ∧ GoodTags T' ∧ TagLe T T' ∧ (∀ x t, tagOf T' x = some t → X.jumpTo = some x ∨ tagOf T x = some t) ∧
      Deco names H T' ret True X D := by
  rcases hk with ⟨hty, ⟨y, hy⟩, hf⟩ | ⟨hty, ⟨y, hy⟩, ⟨z, hz⟩, c, hc⟩ | ⟨hty, _, hj, hf, i, hi, hio⟩ | ⟨hty, hj, hf⟩ | ⟨hty, hj, ⟨z, hz⟩, i, F, hi, hF⟩
  · refine ⟨_, _, ?_, good_request hT y, tagLe_request y T, ?_, .jump y (tagFromDict y T).1 hty hy hf (request_stable y T).2.1 (Or.inl trivial)⟩
    · unfold insertJump
      rw [if_pos hty, hy, Option.map_some, ← hy]
      rfl
    · intro x t h
      rcases keys_request h with rfl | h
      · exact Or.inl hy
      · exact Or.inr h
  · refine ⟨_, _, ?_, good_request hT y, tagLe_request y T, ?_, .branch y z c (tagFromDict y T).1 hty hy hz hc (request_stable y T).2.1 (Or.inl trivial)⟩
    · unfold insertJump
      rw [if_neg (by rw [hty]; decide), if_pos hty, hy, Option.bind_some, hc, Option.map_some]
      unfold addJump
      simp only [hy, hc]
      rfl
    · intro x t h
      rcases keys_request h with rfl | h
      · exact Or.inl hy
      · exact Or.inr h
  · obtain ⟨o, ho⟩ := Option.ne_none_iff_exists'.1 (hret hty)
    obtain ⟨l, hl⟩ := getLast?_eq_some_iff.1 hi
    refine ⟨l ++ [{ i with ins := o :: i.ins }], T, ?_, hT, TagLe.refl T, fun x t h => Or.inr h, .ret o l i hty hj hf hl hio ho (Or.inl trivial)⟩
    unfold insertJump
    rw [if_neg (by rw [hty]; decide), if_neg (by rw [hty]; decide), if_pos hty, hi, Option.bind_some, ho, Option.bind_some, if_pos hio, hl, dropLast_concat]
  · refine ⟨X.instrs, T, ?_, hT, TagLe.refl T, fun x t h => Or.inr h, .exit hty hj hf (Or.inl trivial)⟩
    unfold insertJump
    have : X.jumpType = "terminal" ∨ X.jumpType = "mainExit" := by simpa using hty
    rcases this with h | h <;> rw [if_neg (by rw [h]; decide), if_neg (by rw [h]; decide), if_neg (by rw [h]; decide)]
  · obtain ⟨l, hl⟩ := getLast?_eq_some_iff.1 hi
    refine ⟨X.instrs, T, ?_, hT, TagLe.refl T, fun x t h => Or.inr h, .sub l i z hty hl (hfns _ _ hF) hj hz trivial⟩
    unfold insertJump
    rw [if_neg (by rw [hty]; decide), if_neg (by rw [hty]; decide), if_neg (by rw [hty]; decide)]

theorem insertJumps_deco (H : Obj) {ret : Option String} {m : Bool} (hfns : ∀ f F, O.fns f = some F → f ∈ names) : ∀ (bs : List Block) {T : TagDict}, GoodTags T → (∀ X ∈ bs, KindOk O m X) →
    (∀ X ∈ bs, X.jumpType = "FunctionReturn" → ret ≠ none) →
    ∃ bs' T', insertJumps ret bs T = some (bs', T') ∧ GoodTags T' ∧ TagLe T T' ∧
      (∀ x t, tagOf T' x = some t → (∃ X ∈ bs, X.jumpTo = some x) ∨ tagOf T x = some t) ∧
      Forall₂ (fun X X' => ∃ D, X' = { X with instrs := D } ∧ Deco names H T' ret True X D) bs bs'
  | [], T, hT, _, _ => ⟨[], T, rfl, hT, TagLe.refl T, fun x t h => Or.inr h, .nil⟩
  | X :: bs, T, hT, hk, hr => by
    obtain ⟨D, T1, h1, h2, h3, h4, h5⟩ := insertJump_deco (names := names) H (hk X mem_cons_self) hfns (hr X mem_cons_self) hT
    obtain ⟨bs', T2, g1, g2, g3, g4, g5⟩ := insertJumps_deco H hfns bs h2 (fun Y hY => hk Y (mem_cons_of_mem _ hY)) fun Y hY => hr Y (mem_cons_of_mem _ hY)
    refine ⟨{ X with instrs := D } :: bs', T2, ?_, g2, h3.trans g3, ?_, .cons ⟨D, rfl, deco_mono g3 h5⟩ g5⟩
    · unfold insertJumps
      rw [h1, Option.bind_some]
      simp only [g1, Option.map_some]
    · intro x t h
      rcases g4 x t h with ⟨Y, hY, hx⟩ | h
      · exact Or.inl ⟨Y, mem_cons_of_mem _ hY, hx⟩
      · rcases h4 x t h with h | h
        · exact Or.inl ⟨X, mem_cons_self, h⟩
        · exact Or.inr h

theorem forall₂_ids {P : Block → List Instr → Prop} {bs bs' : List Block} (h : Forall₂ (fun X X' => ∃ D, X' = { X with instrs := D } ∧ P X D) bs bs') :
    bs'.map (·.id) = bs.map (·.id) := by
  induction h with
  | nil => rfl
  | cons h _ ih =>
    obtain ⟨D, rfl, _⟩ := h
    simp [ih]

theorem forall₂_find {P : Block → List Instr → Prop} {bs bs' : List Block} (h : Forall₂ (fun X X' => ∃ D, X' = { X with instrs := D } ∧ P X D) bs bs')
    (x : String) : (bs.find? (fun y => y.id == x) = none → bs'.find? (fun y => y.id == x) = none) ∧
      ∀ X, bs.find? (fun y => y.id == x) = some X → ∃ D, bs'.find? (fun y => y.id == x) = some { X with instrs := D } ∧ P X D := by
  induction h with
  | nil => exact ⟨fun _ => rfl, fun X hX => by cases hX⟩
  | @cons Y _ _ _ h _ ih =>
    obtain ⟨D, rfl, hp⟩ := h
    simp only [find?_cons]
    cases hx : (Y.id == x) with
    | true =>
      refine ⟨fun h => by simp at h, fun X hX => ?_⟩
      simp only [Option.some.injEq] at hX
      subst hX
      exact ⟨D, rfl, hp⟩
    | false => exact ih

/-- The return variables. -/
def retOf (O : Obj) : Option String → Option String
  | none => none
  | some f => (O.fns f).bind (retVar f)

/-- One component. -/
theorem comp_deco (hL : Lowerable names O) {c : Option String} {C : Component} (hC : O.comp c = some C) {T : TagDict} (hT : GoodTags T) :
    ∃ bs' T', insertJumps (retOf O c) C.body.blocks T = some (bs', T') ∧ GoodTags T' ∧ TagLe T T' ∧
      (∀ x t, tagOf T' x = some t → (∃ X, C.body.get x = some X) ∨ tagOf T x = some t) ∧
      DecoComp names O T' (retOf O c) (fun _ => True) C ⟨(retOf O c).toList ++ C.args, { C.body with blocks := bs' }⟩ := by
  have hsane := hL.sane c C hC
  have hget : ∀ X ∈ C.body.blocks, C.body.get X.id = some X := fun X hX => get_of_mem hsane.coherent.ids hX
  have hk : ∀ X ∈ C.body.blocks, KindOk O c.isNone X := fun X hX => (hL.blocks c C hC X.id X (hget X hX)).2
  obtain ⟨bs', T', h1, h2, h3, h4, h5⟩ := insertJumps_deco (names := names) O (ret := retOf O c) (fun f F hF => (hL.fns f).2 ⟨F, hF⟩) C.body.blocks hT hk (by
    intro X hX hty
    cases c with
    | none =>
      rcases hk X hX with ⟨h, _⟩ | ⟨h, _⟩ | ⟨_, h, _⟩ | ⟨h, _⟩ | ⟨h, _⟩
      · rw [hty] at h; exact absurd h (by decide)
      · rw [hty] at h; exact absurd h (by decide)
      · cases h
      · rw [hty] at h; simp at h
      · rw [hty] at h; exact absurd h (by decide)
    | some f =>
      have hF : O.fns f = some C := hC
      rw [show retOf O (some f) = (O.fns f).bind (retVar f) from rfl, hF, Option.bind_some]
      unfold retVar
      rw [if_neg]
      · simp
      · intro hnil
        have := ((hL.exits _ _ hC).returns X.id).2 ⟨X, hget X hX, hty⟩
        rw [hnil] at this
        cases this)
  refine ⟨bs', T', h1, h2, h3, ?_, ?_⟩
  · intro x t h
    rcases h4 x t h with ⟨X, hX, hx⟩ | h
    · exact Or.inl (hsane.coherent.targets X.id X (hget X hX) x (mem_succs.2 (Or.inl hx)))
    · exact Or.inr h
  · refine ⟨rfl, rfl, ?_, fun x hx => (forall₂_find h5 x).1 hx, fun x X hX => (forall₂_find h5 x).2 X hX⟩
    show (bs'.map (·.id)).Nodup
    rw [forall₂_ids h5]
    exact hsane.coherent.ids

/-- What holds when the components in `S` have been decorated. -/
structure Half (names : List String) (O : Obj) (S : Option String → Prop) (T : TagDict) (O1 : Obj) : Prop where
  tags : GoodTags T
  keys : ∀ x t, tagOf T x = some t → ∃ c C X, O.comp c = some C ∧ C.body.get x = some X
  none : ∀ c, O.comp c = none → O1.comp c = none
  done : ∀ c C, S c → O.comp c = some C → ∃ C', O1.comp c = some C' ∧ DecoComp names O T (retOf O c) (fun _ => True) C C'
  todo : ∀ c C, ¬ S c → O.comp c = some C → O1.comp c = some C

theorem half_fns (hL : Lowerable names O) : ∀ (fs : List String) {S : Option String → Prop} {T : TagDict} {O1 : Obj}, Half names O S T O1 → fs.Nodup →
    (∀ f ∈ fs, f ∈ names ∧ ¬ S (some f)) →
    ∃ O2 T', insertFns fs O1 T = some (O2, T') ∧ Half names O (fun c => S c ∨ ∃ f ∈ fs, c = some f) T' O2
  | [], S, T, O1, h, _, _ => ⟨O1, T, rfl, by simpa using h⟩
  | f :: fs, S, T, O1, h, hn, hf => by
    obtain ⟨hnf, hn'⟩ := nodup_cons.1 hn
    obtain ⟨hfn, hfS⟩ := hf f mem_cons_self
    obtain ⟨F, hF⟩ := (hL.fns f).1 hfn
    have hC : O.comp (some f) = some F := hF
    have hC1 : O1.fns f = some F := h.todo (some f) F hfS hC
    obtain ⟨s, B, hs, hB⟩ := (hL.sane _ F hC).start
    obtain ⟨bs', T', h1, h2, h3, h4, h5⟩ := comp_deco hL hC (good_request h.tags s)
    have hle : TagLe T T' := (tagLe_request s T).trans h3
    have hret : retOf O (some f) = retVar f F := by rw [show retOf O (some f) = (O.fns f).bind (retVar f) from rfl, hF]; rfl
    rw [hret] at h1 h5
    have hset : ∀ c, (setFn O1 f ⟨(retVar f F).toList ++ F.args, { F.body with blocks := bs' }⟩).comp c =
        if c = some f then some ⟨(retVar f F).toList ++ F.args, { F.body with blocks := bs' }⟩ else O1.comp c := by
      intro c
      cases c with
      | none => rw [if_neg (by simp)]; rfl
      | some g =>
        show (if g = f then _ else _) = _
        by_cases hg : g = f
        · rw [if_pos hg, if_pos (by rw [hg])]
        · rw [if_neg hg, if_neg (fun h => hg (Option.some.inj h))]
          rfl
    have hhalf : Half names O (fun c => S c ∨ c = some f) T' (setFn O1 f ⟨(retVar f F).toList ++ F.args, { F.body with blocks := bs' }⟩) := by
      refine ⟨h2, ?_, ?_, ?_, ?_⟩
      · intro x t hx
        rcases h4 x t hx with ⟨X, hX⟩ | hx
        · exact ⟨some f, F, X, hC, hX⟩
        · rcases keys_request hx with rfl | hx
          · exact ⟨some f, F, B, hC, hB⟩
          · exact h.keys x t hx
      · intro c hc
        rw [hset, if_neg (by rintro rfl; rw [hC] at hc; cases hc)]
        exact h.none c hc
      · intro c C hSc hCc
        rw [hset]
        by_cases hcf : c = some f
        · subst hcf
          rw [hC] at hCc
          cases hCc
          rw [hret]
          exact ⟨_, if_pos rfl, h5⟩
        · rw [if_neg hcf]
          rcases hSc with hSc | hSc
          · obtain ⟨C', e1, e2⟩ := h.done c C hSc hCc
            exact ⟨C', e1, decoComp_mono hle e2⟩
          · exact absurd hSc hcf
      · intro c C hSc hCc
        rw [hset, if_neg (fun h => hSc (Or.inr h))]
        exact h.todo c C (fun h => hSc (Or.inl h)) hCc
    obtain ⟨O2, T2, g1, g2⟩ := half_fns hL fs hhalf hn' (by
      intro g hg
      refine ⟨(hf g (mem_cons_of_mem _ hg)).1, ?_⟩
      rintro (h | h)
      · exact (hf g (mem_cons_of_mem _ hg)).2 h
      · cases h; exact hnf hg)
    refine ⟨O2, T2, ?_, ?_⟩
    · unfold insertFns insertFn
      rw [hC1, Option.bind_some, hs, Option.bind_some, h1, Option.map_some, Option.bind_some]
      exact g1
    · have : (fun c => (S c ∨ c = some f) ∨ ∃ g ∈ fs, c = some g) = fun c => S c ∨ ∃ g ∈ f :: fs, c = some g := by
        funext c
        simp only [mem_cons, exists_eq_or_imp, or_assoc]
      rwa [this] at g2

/-- Jumps and tags are inserted everywhere. -/
theorem insertObj_deco (hL : Lowerable names O) :
    ∃ O1 T, insertObj names O = some (O1, T) ∧ Half names O (fun _ => True) T O1 := by
  have hC : O.comp none = some ⟨[], O.main⟩ := rfl
  obtain ⟨bs', T', h1, h2, h3, h4, h5⟩ := comp_deco hL hC (T := []) ⟨nodup_nil, .nil⟩
  have hhalf : Half names O (fun c => c = none) T' { O with main := { O.main with blocks := bs' } } := by
    refine ⟨h2, ?_, ?_, ?_, ?_⟩
    · intro x t hx
      rcases h4 x t hx with ⟨X, hX⟩ | hx
      · exact ⟨none, _, X, hC, hX⟩
      · cases hx
    · intro c hc
      cases c with
      | none => cases hc
      | some f => exact hc
    · rintro c C rfl hCc
      rw [hC] at hCc
      cases hCc
      exact ⟨_, rfl, h5⟩
    · intro c C hc hCc
      cases c with
      | none => exact absurd rfl hc
      | some f => exact hCc
  obtain ⟨O2, T2, g1, g2⟩ := half_fns hL names hhalf hL.nodup (fun f hf => ⟨hf, by simp⟩)
  refine ⟨O2, T2, ?_, g2.tags, g2.keys, g2.none, ?_, ?_⟩
  · unfold insertObj
    have h1' : insertJumps none O.main.blocks [] = some (bs', T') := h1
    rw [h1', Option.bind_some]
    exact g1
  · intro c C _ hCc
    refine g2.done c C ?_ hCc
    cases c with
    | none => exact Or.inl rfl
    | some f => exact Or.inr ⟨f, (hL.fns f).2 ⟨C, hCc⟩, rfl⟩
  · intro c C h
    exact absurd trivial h

/-- The tags of the functions. -/
theorem functionTags_spec {H O' : Obj} (hst : ∀ f F, H.fns f = some F → ∃ F', O'.fns f = some F' ∧ F'.body.start = F.body.start)
    (hs : ∀ f F, H.fns f = some F → ∃ s S, F.body.start = some s ∧ F.body.get s = some S) : ∀ (fs : List String) {T : TagDict}, GoodTags T →
    (∀ f ∈ fs, ∃ F, H.fns f = some F) →
    ∃ f2t T', functionTags O' fs T = some (f2t, T') ∧ GoodTags T' ∧ TagLe T T' ∧
      (∀ x t, tagOf T' x = some t → (∃ f F X, H.fns f = some F ∧ F.body.get x = some X) ∨ tagOf T x = some t) ∧
      (∀ f, (f2t.lookup f).isSome ↔ f ∈ fs) ∧ ∀ f t, f2t.lookup f = some t → FnTag H T' f t
  | [], T, hT, _ => ⟨[], T, rfl, hT, TagLe.refl T, fun x t h => Or.inr h, by simp, by simp⟩
  | f :: fs, T, hT, hf => by
    obtain ⟨F, hF⟩ := hf f mem_cons_self
    obtain ⟨F', hF', hst'⟩ := hst f F hF
    obtain ⟨s, S, h1, h2⟩ := hs f F hF
    obtain ⟨f2t, T', g1, g2, g3, g4, g5, g6⟩ := functionTags_spec hst hs fs (good_request hT s) fun g hg => hf g (mem_cons_of_mem _ hg)
    refine ⟨(f, (tagFromDict s T).1) :: f2t, T', ?_, g2, (tagLe_request s T).trans g3, ?_, ?_, ?_⟩
    · unfold functionTags
      rw [hF', Option.bind_some, hst', h1, Option.bind_some, g1]
      rfl
    · intro x t hx
      rcases g4 x t hx with h | h
      · exact Or.inl h
      · rcases keys_request h with rfl | h
        · exact Or.inl ⟨f, F, S, hF, h2⟩
        · exact Or.inr h
    · intro g
      rw [lookup_cons]
      by_cases hg : g = f
      · subst hg; simp
      · rw [show (g == f) = false by simpa using hg]
        simp only [mem_cons, hg, false_or]
        exact g5 g
    · intro g t hgt
      rw [lookup_cons] at hgt
      by_cases hg : g = f
      · subst hg
        simp only [beq_self_eq_true, Option.some.injEq] at hgt
        exact ⟨F, s, hF, h1, g3 s t (hgt ▸ (request_stable s T).2.1)⟩
      · rw [show (g == f) = false by simpa using hg] at hgt
        exact g6 g t hgt

theorem ret_none (hL : Lowerable names O) {f : String} {F : Component} (hF : O.fns f = some F) : retOf O (some f) = none ↔ ¬ Returns F := by
  have hE := (hL.exits (some f) F hF).returns
  rw [show retOf O (some f) = (O.fns f).bind (retVar f) from rfl, hF, Option.bind_some]
  unfold retVar Returns
  constructor
  · intro h
    split at h
    · rename_i hnil
      rintro ⟨x, X, hX, hty⟩
      have := (hE x).2 ⟨X, hX, hty⟩
      rw [hnil] at this
      cases this
    · cases h
  · intro h
    rw [if_pos]
    rw [eq_nil_iff_forall_not_mem]
    intro x hx
    obtain ⟨X, hX, hty⟩ := (hE x).1 hx
    exact h ⟨x, X, hX, hty⟩

theorem parts_of_lowerable (hL : Lowerable names O) : PartsOk names (retOf O) O := by
  refine ⟨hL.fns, hL.sane, hL.noSelf, hL.start, ?_, hL.args, hL.blockNames, hL.names, rfl, ?_⟩
  · intro c C hC x X hX
    have h := (hL.blocks c C hC x X hX).1
    refine ⟨h.phisFirst, h.phiShape, h.phiOuts, h.phiEntries, h.onlyReturns, h.ends, ?_, h.ops, h.plain, h.plainCond, h.vars⟩
    intro l i l' hl hi
    obtain ⟨F, hF⟩ := (hL.fns i.op).1 hi
    rw [ret_none hL hF]
    exact h.tails l i l' F hl hF
  · intro f
    rw [show retOf O (some f) = (O.fns f).bind (retVar f) from rfl]
    cases hF : O.fns f with
    | none => exact Or.inl rfl
    | some F =>
      rw [Option.bind_some]
      unfold retVar
      split
      · exact Or.inl rfl
      · exact Or.inr rfl

/-- The lowering succeeds, and the result is a decorated version of an object that runs like `O`. -/
theorem lower_deco (hL : Lowerable names O) : ∃ O' T f2t H, lower names O = some (O', T) ∧ Inv names (retOf O) f2t O (fun _ _ => False) H O' T := by
  obtain ⟨O1, T1, h1, hh⟩ := insertObj_deco hL
  have hdone := fun c C hC => hh.done c C trivial hC
  obtain ⟨f2t, T2, g1, g2, g3, g4, g5, g6⟩ := functionTags_spec (H := O) (O' := O1)
    (by
      intro f F hF
      obtain ⟨F', hF', hd⟩ := hdone (some f) F hF
      exact ⟨F', hF', hd.start⟩)
    (fun f F hF => (hL.sane (some f) F hF).start) names hh.tags (fun f hf => (hL.fns f).1 hf)
  have hv : Inv names (retOf O) f2t O (rawAll O1) O O1 T2 := by
    refine ⟨parts_of_lowerable hL, ⟨hh.none, ?_⟩, g2, ?_, g6, g5, SameRuns.refl O, ?_, ?_, fun h => h⟩
    · intro c C hC
      obtain ⟨C', hC', hd⟩ := hdone c C hC
      refine ⟨C', hC', hd.args, hd.start, hd.ids, hd.none, ?_⟩
      intro x X hX
      obtain ⟨D, e1, e2⟩ := hd.some x X hX
      refine ⟨D, e1, deco_map id (deco_mono g3 e2) ?_ rfl rfl rfl (by simp) (by simp) (fun _ _ _ h => h) fun _ _ h => h⟩
      exact ⟨fun _ => ⟨C', _, hC', e1⟩, fun _ => trivial⟩
    · intro x t hx
      rcases g4 x t hx with ⟨f, F, X, hF, hX⟩ | h
      · exact ⟨some f, F, X, hF, hX⟩
      · exact hh.keys x t h
    · intro c C x X i hC hX hi
      exact ⟨C, x, X, hC, hX, hi⟩
    · rintro c x ⟨C', X', hC', hX'⟩
      cases hC : O.comp c with
      | none => rw [hh.none c hC] at hC'; cases hC'
      | some C =>
        obtain ⟨C'', hC'', hd⟩ := hdone c C hC
        rw [hC'] at hC''
        cases hC''
        cases hX : C.body.get x with
        | none => rw [hd.none x hX] at hX'; cases hX'
        | some X => exact ⟨C, X, rfl, hX⟩
  obtain ⟨G, T3, O'', T', H', e1, e2, e3⟩ := inv_obj hL.nodup hv
  refine ⟨O'', T', f2t, H', ?_, e3⟩
  unfold lower splitObj
  rw [h1, Option.bind_some]
  simp only [g1, Option.bind_some, e1]
  exact e2

end
end Grey.Lower
