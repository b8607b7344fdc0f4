/-
The simulation behind C53 and C54, for any machine that runs a program block by block: what the machine has besides its stack is
arbitrary, and so is how it is related to the state of the program.
-/
import Verif.Program.Lemmas
import Verif.SymExec.Theorems
import Verif.Sfs.EndToEnd
namespace Grey.Program
open List Grey.Layout Grey.Sfs Grey.SymExec

/-- The code of a block, as a relation between stacks and memories before and after, and its last instruction. -/
structure GCode (V μ : Type) where
  run : List V → μ → List V → μ → Prop
  last : Last

/-- A state of the machine: the block to execute next, the stack, and the memory. -/
structure GConfig (V μ : Type) where
  fn : String
  block : String
  stack : List V
  mem : μ

/-- The machine runs the code of a block. `dest` says which block begins at the position a value stands for. -/
inductive GStep {V μ : Type} (zero : V) (code : String → String → Option (GCode V μ)) (dest : V → Option (String × String)) :
    GConfig V μ → GConfig V μ ⊕ Halted V μ → Prop
  | next {f b b' k s m s' m'} (hc : code f b = some k) (hl : k.last = .next (some b')) (hr : k.run s m s' m') :
      GStep zero code dest ⟨f, b, s, m⟩ (.inl ⟨f, b', s', m'⟩)
  | jump {f b f' b' k s m t s' m'} (hc : code f b = some k) (hl : k.last = .jump) (hr : k.run s m (t :: s') m')
      (ht : dest t = some (f', b')) : GStep zero code dest ⟨f, b, s, m⟩ (.inl ⟨f', b', s', m'⟩)
  | taken {f b b1 f' b' k s m t c s' m'} (hc : code f b = some k) (hl : k.last = .jumpi b1)
      (hr : k.run s m (t :: c :: s') m') (hz : c ≠ zero) (ht : dest t = some (f', b')) :
      GStep zero code dest ⟨f, b, s, m⟩ (.inl ⟨f', b', s', m'⟩)
  | notTaken {f b b' k s m t s' m'} (hc : code f b = some k) (hl : k.last = .jumpi (some b'))
      (hr : k.run s m (t :: zero :: s') m') : GStep zero code dest ⟨f, b, s, m⟩ (.inl ⟨f, b', s', m'⟩)
  | stop {f b k s m op n args s' m'} (hc : code f b = some k) (hl : k.last = .stop op n) (hn : args.length = n)
      (hr : k.run s m (args ++ s') m') : GStep zero code dest ⟨f, b, s, m⟩ (.inr ⟨op, args, m'⟩)

/-- Runs of the machine, with the blocks that are executed. -/
inductive GRuns {V μ : Type} (zero : V) (code : String → String → Option (GCode V μ)) (dest : V → Option (String × String)) :
    GConfig V μ → List (String × String) → GConfig V μ ⊕ Halted V μ → Prop
  | nil (m) : GRuns zero code dest m [] (.inl m)
  | halt {m h} (hs : GStep zero code dest m (.inr h)) : GRuns zero code dest m [(m.fn, m.block)] (.inr h)
  | cons {m m' tr x} (hs : GStep zero code dest m (.inl m')) (hr : GRuns zero code dest m' tr x) :
      GRuns zero code dest m ((m.fn, m.block) :: tr) x

section
variable {V σ μ : Type} {P : Prog} {I : Interp V σ} {code : String → String → Option (GCode V μ)} {dest : V → Option (String × String)}
  {L : Config V σ → μ → Prop} {H : σ → μ → Prop}

/-- What lies on the stack below the values of the block that is executed: for every call that has not returned the values that
the caller will go on with. Below the stack of the main code lies anything. -/
inductive Rest (P : Prog) (I : Interp V σ) (dest : V → Option (String × String)) :
    String → (String → V) → List (Frame V) → List V → Prop
  | main {env rest} : Rest P I dest P.main env [] rest
  | call {f F env fr frames F' B' st src mid env' rest} (hf : f ≠ P.main) (hF : P.fns f = some F) (hF' : P.fns fr.fn = some F')
      (hB : F'.graph.block fr.block = some B') (hreach : Reachable F'.graph B'.id) (hd : drive F'.graph = .ok st)
      (hs : (B'.id, src, F'.exitOuts B' ++ mid) ∈ st.specs) (hmid : ∀ v ∈ F'.exitOuts B', v ∉ mid) (hsame : Same fr.env env')
      (hret : P.Returns F → ∀ o, F.graph.inputs.getLast? = some o → ∀ n, B'.fallsTo = some n → dest (env o) = some (fr.fn, n))
      (hrest : Rest P I dest fr.fn fr.env frames rest) :
      Rest P I dest f env (fr :: frames) (mid.map (I.read env') ++ rest)

theorem Rest.env {f : String} {env env2 : String → V} {frames : List (Frame V)} {rest : List V} (h : Rest P I dest f env frames rest)
    (he : ∀ F, P.fns f = some F → P.Returns F → ∀ o, F.graph.inputs.getLast? = some o → env o = env2 o) :
    Rest P I dest f env2 frames rest := by
  cases h with
  | main => exact .main
  | call hf hF hF' hB hreach hd hs hmid hsame hret hrest =>
    exact .call hf hF hF' hB hreach hd hs hmid hsame (fun hr o ho n hn => by rw [← he _ hF hr o ho]; exact hret hr o ho n hn) hrest

theorem exitOuts_of_fall {F : Fn} {B : LBlock} (h : P.exit F B = .fall) : F.exitArgs B = [] ∧ F.exitOuts B = [] := by
  unfold Prog.exit at h
  unfold Fn.exitArgs Fn.exitOuts
  cases hs : F.split B.id with
  | none => simp
  | some i =>
    rw [hs] at h
    simp only at h
    split at h
    · simp at h
    split at h
    · simp at h
    split at h
    · simp at h
    split at h <;> simp at h

/-- The machine is where the program is, has the values of the variables on its stack, and its memory is related to the state of
the program by `L`. -/
def GSim (P : Prog) (I : Interp V σ) (dest : V → Option (String × String)) (L : Config V σ → μ → Prop) (c : Config V σ)
    (m : GConfig V μ) : Prop :=
  m.fn = c.fn ∧ m.block = c.block ∧ L c m.mem ∧ ∃ F B st src tgt vals rest, P.fns c.fn = some F ∧
    F.graph.block c.block = some B ∧ Reachable F.graph B.id ∧ drive F.graph = .ok st ∧ (B.id, src, tgt) ∈ st.specs ∧
    m.stack = vals ++ rest ∧ Match I src vals c.env ∧ Rest P I dest c.fn c.env c.frames rest

/-- After a step the memory is related to the state of the program. -/
def Linked (L : Config V σ → μ → Prop) (H : σ → μ → Prop) : Config V σ ⊕ Halted V σ → μ → Prop
  | .inl c, m => L c m
  | .inr h, m => H h.world m

/-- Code for the blocks of a component. The code of a block may use that the memory is related to the state of the program, and
has to establish that again. -/
structure GCompiled (P : Prog) (I : Interp V σ) (L : Config V σ → μ → Prop) (H : σ → μ → Prop)
    (code : String → String → Option (GCode V μ)) (f : String) (F : Fn) (st : DState) : Prop where
  layouts : drive F.graph = .ok st
  code : ∀ B ∈ F.graph.blocks, ∀ src tgt, (B.id, src, tgt) ∈ st.specs → ∃ k, code f B.id = some k ∧ k.last = P.last F B ∧
    ∀ (c : Config V σ) (m : μ), c.fn = f → c.block = B.id → L c m → ∀ env', Same c.env env' → ∀ rest, ∃ m' extra,
      k.run ((substDuplicates src).map (I.read env') ++ rest) m
        ((beforeSplit (F.split B.id) tgt).map (I.read (blockRun I (F.instrs B.id) env' c.world).1) ++ extra ++ rest) m' ∧
      (F.graph.canJunk B.id = false → extra = []) ∧ ∀ x, step P I c = some x → Linked L H x m'
  copies : ∀ B ∈ F.graph.blocks, ∀ src tgt, (B.id, src, tgt) ∈ st.specs → (substDuplicates src).Nodup
  fresh : ∀ B ∈ F.graph.blocks, ∀ src tgt, (B.id, src, tgt) ∈ st.specs → ∀ v ∈ F.exitOuts B, v ∉ src

variable (hok : ∀ f F, P.fns f = some F → FnOk P I dest f F) (hcomp : ∀ f F, P.fns f = some F → ∃ st, GCompiled P I L H code f F st)

include hok in
theorem gsim_goto {f : String} {F : Fn} (hF : P.fns f = some F) {st : DState} (hd : drive F.graph = .ok st) {B S : LBlock}
    (hB : B ∈ F.graph.blocks) (hreach : Reachable F.graph B.id) {src tgt : List String} (hspec : (B.id, src, tgt) ∈ st.specs)
    (hS : S ∈ F.graph.blocks) (hedge : S.id ∈ B.succs) (hSb : F.graph.block S.id = some S) {env env' : String → V}
    (hsame : Same env env') {extra rest : List V} (hex : f ≠ P.main → extra = []) {frames : List (Frame V)}
    (hrest : Rest P I dest f env frames rest) {m : μ} {w : σ}
    (hL : L ⟨f, S.id, enter I S.phis (S.preds.idxOf B.id) env, frames, w⟩ m) :
    GSim P I dest L ⟨f, S.id, enter I S.phis (S.preds.idxOf B.id) env, frames, w⟩
      ⟨f, S.id, tgt.map (I.read env') ++ extra ++ rest, m⟩ := by
  have ok := hok f F hF
  have hreachS : Reachable F.graph S.id := .step hreach hB hS hedge
  obtain ⟨srcS, tgtS, hspecS⟩ := (layouts_cover ok.wf ok.one hd).1 _ hreachS
  have hcf : B.id ∈ S.preds := (preds_perm ok.wf hS).mem_iff.2 ((ok.wf.edges B hB S hS).1 hedge)
  have hk : S.preds[S.preds.idxOf B.id]? = some B.id := getElem?_idxOf hcf
  obtain ⟨hlen, hag⟩ := (layouts_agree_on_edges ok.wf ok.one hd hB hS hedge hspec hspecS).1 _ hk
  refine ⟨rfl, rfl, hL, F, S, st, srcS, tgtS, (tgt.map (I.read env')).take srcS.length,
    (tgt.map (I.read env')).drop srcS.length ++ extra ++ rest, hF, hSb, hreachS, hd, hspecS, ?_, ?_, ?_⟩
  · simp only [← append_assoc]
    rw [take_append_drop]
  · refine ⟨by simp only [length_take, length_map]; omega, fun i x hi hx => ?_⟩
    have hlt := (List.getElem?_eq_some_iff.1 hi).1
    obtain ⟨y, hy, hval⟩ := hag i x hi (fun n e => hx (Or.inr ⟨n, e⟩))
    rw [getElem?_take_of_lt hlt, getElem?_map, hy, Option.map_some,
      hval V _ _ (enter_enter (ok.wf.phiOuts S hS) (fun p hp => (ok.properPhi S hS p hp).1) _ env'),
      read_same (enter_same (I := I) (ok.namesPhi S hS) (S.preds.idxOf B.id) hsame) hx]
  · have hrest2 : Rest P I dest f (enter I S.phis (S.preds.idxOf B.id) env) frames rest := by
      refine hrest.env fun F2 hF2 hr o ho => ?_
      rw [hF] at hF2
      simp only [Option.some.injEq] at hF2
      subst hF2
      have hno := (ok.keeps hr o ho S hS).2.2
      unfold enter
      have : S.phis.find? (fun g => g.out == o) = none := by
        rw [find?_eq_none]
        intro g hg
        simpa using hno g hg
      rw [this]
    by_cases hm : f = P.main
    · subst hm
      cases hrest2 with
      | main => exact .main
      | call hf => exact absurd rfl hf
    · have hl := layouts_exact_on_edges ok.wf ok.one (ok.junk hm) hd hB hS hedge hspec hspecS
      rw [hex hm, drop_of_length_le (by simp [hl])]
      simpa using hrest2

include hok hcomp in
/-- One block of the program is one block of the machine. -/
theorem gsim_step {c : Config V σ} {m : GConfig V μ} (h : GSim P I dest L c m) {x : Config V σ ⊕ Halted V σ}
    (hs : step P I c = some x) :
    (∃ c', x = .inl c' ∧ ∃ m', GStep (I.num 0) code dest m (.inl m') ∧ GSim P I dest L c' m') ∨
    ∃ hl hl', x = .inr hl ∧ GStep (I.num 0) code dest m (.inr hl') ∧ hl'.op = hl.op ∧ hl'.args = hl.args ∧ H hl.world hl'.world := by
  obtain ⟨hfn, hblock, hL, F, B, st, src, tgt, vals, rest, hF, hBb, hreach, hd, hspec, hstack, hmatch, hrest⟩ := h
  obtain ⟨mf, mb, ms, mm⟩ := m
  simp only at hfn hblock hL hstack
  subst hfn hblock hstack
  obtain ⟨hB, hid⟩ := block_some hBb
  have ok := hok _ F hF
  obtain ⟨st', comp⟩ := hcomp _ F hF
  obtain rfl : st' = st := by
    have := comp.layouts
    rw [hd] at this
    simpa using this.symm
  obtain ⟨k, hcode, hlast, hrun⟩ := comp.code B hB src tgt hspec
  obtain ⟨env', hsame, hvals⟩ := match_fill hmatch (comp.copies B hB src tgt hspec)
  obtain ⟨mem', extra, hrun, hextra, hout'⟩ := hrun c mm rfl hid.symm hL env' hsame rest
  obtain ⟨hfsame, hfworld⟩ := blockRun_same (I := I) (ok.namesIns B hB) hsame c.world
  rw [hvals, beforeSplit_eq, map_append, ← map_read_same hfsame (ok.namesArgs B hB)] at hrun
  rw [hid] at hcode
  generalize hfin : (blockRun I (F.instrs B.id) c.env c.world).1 = fin at hrun hfsame
  generalize hfin' : (blockRun I (F.instrs B.id) env' c.world).1 = fin' at hrun hfsame
  generalize hwfin : (blockRun I (F.instrs B.id) c.env c.world).2 = wfin at hrun
  have hexm : c.fn ≠ P.main → extra = [] := fun hm => hextra (ok.junk hm B.id)
  have htag : ∀ t target, PushesTag I dest (F.instrs B.id) t target → dest (I.read fin t) = some target := by
    intro t target h
    rw [← hfin]
    exact tag_value h (ok.insOuts B hB) (fun i hi v hv => (ok.properIns B hB i hi v hv).1) _ _
  have hrestf : Rest P I dest c.fn fin c.frames rest := by
    refine hrest.env fun F2 hF2 hr o ho => ?_
    rw [hF] at hF2
    simp only [Option.some.injEq] at hF2
    subst hF2
    rw [← hfin, blockRun_notin _ _ _ _ (ok.keeps hr o ho B hB).1]
  -- going on with a successor
  have hgoto : ∀ (target : Option String) c', F.exitOuts B = [] → (∀ n, target = some n → n ∈ B.succs) →
      goto I c.fn F B target fin c.frames wfin = some c' → L c' mem' →
      ∃ n, target = some n ∧ c'.fn = c.fn ∧ c'.block = n ∧ GSim P I dest L c' ⟨c.fn, n, (drop (F.exitOuts B).length tgt).map (I.read fin') ++ extra ++ rest, mem'⟩ := by
    intro target c' hout hsucc hg hL'
    unfold goto at hg
    obtain ⟨S, hS, rfl⟩ := Option.map_eq_some_iff.1 hg
    obtain ⟨n, rfl, hS⟩ := Option.bind_eq_some_iff.1 hS
    obtain ⟨hSm, hSid⟩ := block_some hS
    subst hSid
    refine ⟨_, rfl, rfl, rfl, ?_⟩
    rw [hout]
    exact gsim_goto hok hF hd hB hreach hspec hSm (hsucc _ rfl) hS hfsame hexm hrestf hL'
  have hfall : ∀ n, B.fallsTo = some n → n ∈ B.succs := fun n hn => by unfold LBlock.succs; rw [hn]; simp
  have hjump : ∀ n, B.jumpTo = some n → n ∈ B.succs := fun n hn => by unfold LBlock.succs; rw [hn]; simp
  have hlink := hout' x hs
  unfold step at hs
  rw [hF] at hs
  simp only [Option.bind_some] at hs
  rw [hBb] at hs
  simp only [Option.bind_some, hfin, hwfin] at hs
  have hout := ok.outs B hB
  unfold Prog.last at hlast
  cases hexit : P.exit F B with
  | fall =>
    rw [hexit] at hs hlast
    simp only at hs hlast
    obtain ⟨c', hg, rfl⟩ := Option.map_eq_some_iff.1 hs
    obtain ⟨n, hn, h1, h2, h3⟩ := hgoto _ _ (exitOuts_of_fall hexit).2 hfall hg hlink
    refine Or.inl ⟨c', rfl, _, ?_, h3⟩
    rw [(exitOuts_of_fall hexit).1, map_nil, nil_append] at hrun
    exact .next hcode (hn ▸ hlast) hrun
  | jump =>
    rw [hexit] at hs hlast
    simp only at hs hlast
    obtain ⟨c', hg, rfl⟩ := Option.map_eq_some_iff.1 hs
    obtain ⟨n, hn, h1, h2, h3⟩ := hgoto _ _ (hout (by rw [hexit]; simp)) hjump hg hlink
    refine Or.inl ⟨c', rfl, _, ?_, h3⟩
    obtain ⟨t, n', ht, hj, hp⟩ := ok.jumps B hB hexit
    rw [ht] at hrun
    rw [hn] at hj
    simp only [Option.some.injEq] at hj
    subst hj
    exact .jump hcode hlast hrun (htag _ _ hp)
  | branch =>
    rw [hexit] at hs hlast
    simp only at hs hlast
    obtain ⟨c', hg, rfl⟩ := Option.map_eq_some_iff.1 hs
    obtain ⟨t, cond, n', ht, hj, hp⟩ := ok.branches B hB hexit
    rw [ht, map_cons, map_cons, map_nil] at hrun
    have hget : (map (I.read fin) (F.exitArgs B))[1]? = some (I.read fin cond) := by rw [ht]; rfl
    split at hg
    · rename_i hz
      rw [hfin, hget, Option.some.injEq] at hz
      obtain ⟨n, hn, h1, h2, h3⟩ := hgoto _ _ (hout (by rw [hexit]; simp)) hfall hg hlink
      refine Or.inl ⟨c', rfl, _, ?_, h3⟩
      rw [hz] at hrun
      exact .notTaken hcode (hn ▸ hlast) hrun
    · rename_i hz
      rw [hfin, hget, Option.some.injEq] at hz
      obtain ⟨n, hn, h1, h2, h3⟩ := hgoto _ _ (hout (by rw [hexit]; simp)) hjump hg hlink
      refine Or.inl ⟨c', rfl, _, ?_, h3⟩
      rw [hn] at hj
      simp only [Option.some.injEq] at hj
      subst hj
      exact .taken hcode hlast hrun hz (htag _ _ hp)
  | call g =>
    rw [hexit] at hs hlast
    simp only at hs hlast
    obtain ⟨G, hG, hs⟩ := Option.bind_eq_some_iff.1 hs
    obtain ⟨hgm, ⟨t, args, ht, hp⟩, hretTag⟩ := ok.calls B hB g G hexit hG
    rw [ht] at hs hrun
    simp only [map_cons, drop_succ_cons, drop_zero] at hs hrun
    split at hs
    · rename_i hlen
      simp only [Option.some.injEq] at hs
      subst hs
      refine Or.inl ⟨_, rfl, _, .jump hcode hlast hrun (htag _ _ hp), ?_⟩
      have okG := hok g G hG
      obtain ⟨S, hS, hSid, hS0⟩ := okG.start
      have hSb : G.graph.block G.graph.start = some S := by
        cases hc : G.graph.block G.graph.start with
        | none =>
          have := find?_eq_none.1 hc S hS
          simp [hSid] at this
        | some S' =>
          obtain ⟨h1, h2⟩ := block_some hc
          rw [same_id okG.wf h1 hS (h2.trans hSid.symm)]
      obtain ⟨stG, compG⟩ := hcomp g G hG
      obtain ⟨srcS, tgtS, hspecS⟩ := (layouts_cover okG.wf okG.one compG.layouts).1 _ .start
      rw [← hSid] at hspecS
      have hsrcS := (layout_of_start okG.wf okG.one compG.layouts hS hS0 hspecS).2 (okG.junk hgm)
      have hassign : G.graph.inputs.map (assign (fun _ => I.num 0) G.graph.inputs (args.map (I.read fin))) = args.map (I.read fin) :=
        map_assign _ _ _ okG.inputsNodup (by simpa using hlen)
      -- the caller's part of the stack
      obtain ⟨mid, hmid, hmid2⟩ : ∃ mid, tgt = F.exitOuts B ++ mid ∧ ∀ v ∈ F.exitOuts B, v ∉ mid := by
        by_cases h0 : F.exitOuts B = []
        · exact ⟨tgt, by rw [h0]; rfl, by rw [h0]; simp⟩
        · obtain ⟨mid, h1, h2⟩ := layout_begins_with_results ok.wf ok.one hd hB (ok.callJoin B hB h0) hspec
          rw [ok.final B hB] at h1 h2
          exact ⟨mid, h1, fun v hv hm => comp.fresh B hB src tgt hspec v hv (h2 v hm hv)⟩
      refine ⟨rfl, rfl, hlink, G, S, stG, srcS, tgtS, args.map (I.read fin), mid.map (I.read fin') ++ (extra ++ rest), hG, hSb,
        hSid ▸ .start, compG.layouts, hspecS, ?_, ?_, ?_⟩
      · simp only
        rw [hmid, drop_left]
        simp
      · rw [hsrcS]
        refine ⟨by simpa using hlen.symm, fun i y hi _ => ?_⟩
        have hy : y ∈ G.graph.inputs := mem_of_getElem? hi
        have := congrArg (fun l => l[i]?) hassign
        rw [← this, getElem?_map, hi, Option.map_some, read_proper (okG.properInputs y hy).1]
      · refine Rest.call (fr := ⟨c.fn, B.id, fin⟩) (B' := B) hgm hG hF (by rw [hid]; exact hBb) hreach hd (hmid ▸ hspec) hmid2
          hfsame ?_ ?_
        · intro hr o ho n hn
          obtain ⟨r, hr1, hr2⟩ := hretTag hr n hn
          have h1 := congrArg getLast? hassign
          rw [getLast?_map, getLast?_map, ho, Option.map_some] at h1
          have hne : args ≠ [] := by
            rintro rfl
            simp at h1
          rw [ht, getLast?_cons_of_ne_nil hne] at hr1
          rw [hr1, Option.map_some, Option.some.injEq] at h1
          show dest (assign (fun _ => I.num 0) G.graph.inputs (args.map (I.read fin)) o) = some (c.fn, n)
          rw [h1]
          exact htag _ _ hr2
        · by_cases hm : c.fn = P.main
          · rw [hm] at hrestf ⊢
            revert hrestf
            generalize c.frames = frs
            intro hrestf
            cases hrestf with
            | main => exact .main
            | call hf => exact absurd rfl hf
          · rw [hexm hm]
            exact hrestf
    · simp at hs
  | ret =>
    rw [hexit] at hs hlast
    simp only at hs hlast
    obtain ⟨hm, hsucc, hlive, ht1, ht2⟩ := ok.ret B hB hexit
    obtain ⟨o, rvals, ho, hlasto⟩ := ok.returns B hB hexit
    have hret : P.Returns F := ⟨B, hB, hexit⟩
    have htgt : tgt = [] := layout_of_return ok.wf ok.one (ok.junk hm) hd hB hsucc hlive
      (by rw [ok.final B hB]; exact hout (by rw [hexit]; simp)) ht1 ht2 hspec
    rw [htgt, ho, hexm hm] at hrun
    rw [ho] at hs
    simp only [map_cons, drop_succ_cons, drop_zero, drop_nil, map_nil, append_nil, cons_append] at hs hrun
    cases hfr : c.frames with
    | nil => rw [hfr] at hs; simp at hs
    | cons fr frames =>
      rw [hfr] at hs hrestf
      simp only at hs
      obtain ⟨F', hF', hs⟩ := Option.bind_eq_some_iff.1 hs
      obtain ⟨B', hB', hs⟩ := Option.bind_eq_some_iff.1 hs
      split at hs
      · rename_i hlen
        obtain ⟨c', hg, rfl⟩ := Option.map_eq_some_iff.1 hs
        unfold goto at hg
        obtain ⟨S, hS, rfl⟩ := Option.map_eq_some_iff.1 hg
        obtain ⟨n, hn, hS⟩ := Option.bind_eq_some_iff.1 hS
        obtain ⟨hSm, hSid⟩ := block_some hS
        subst hSid
        generalize hcf : c.fn = cf at hrestf
        generalize hfs : fr :: frames = fs at hrestf
        cases hrestf with
        | main => simp at hfs
        | call hf hF2 hF2' hB2 hreach' hd' hs' hmid hsame' hret' hrest' =>
          rename_i F2 fr2 frames2 F2' B2 st2 src2 mid2 env2 rest2
          simp only [cons.injEq] at hfs
          obtain ⟨rfl, rfl⟩ := hfs
          rw [← hcf, hF] at hF2
          rw [hF'] at hF2'
          simp only [Option.some.injEq] at hF2 hF2'
          subst hF2 hF2'
          rw [hB'] at hB2
          simp only [Option.some.injEq] at hB2
          subst hB2
          obtain ⟨hBm', hBid'⟩ := block_some hB'
          have ok' := hok _ F' hF'
          have hdest := hret' hret o hlasto _ hn
          rw [← read_proper (I := I) (env := fin) (ok.properInputs o (mem_of_getLast? hlasto)).1] at hdest
          rw [hcf] at hcode
          refine Or.inl ⟨_, rfl, _, .jump hcode hlast hrun hdest, ?_⟩
          have hvals' : rvals.map (I.read fin) ++ (mid2.map (I.read env2) ++ rest2) =
              (F'.exitOuts B' ++ mid2).map (I.read (assign env2 (F'.exitOuts B') (rvals.map (I.read fin)))) ++ [] ++ rest2 := by
            rw [map_append, append_nil, append_assoc]
            congr 1
            · have : (F'.exitOuts B').map (I.read (assign env2 (F'.exitOuts B') (rvals.map (I.read fin)))) =
                  (F'.exitOuts B').map (assign env2 (F'.exitOuts B') (rvals.map (I.read fin))) :=
                map_congr_left fun v hv => read_proper (ok'.properOuts B' hBm' v hv).1
              rw [this, map_assign _ _ _ (ok'.outsNodup B' hBm') (by simpa using hlen)]
            · congr 1
              apply map_congr_left
              intro v hv
              unfold Interp.read
              rw [assign_notin _ _ _ _ (fun hv' => hmid v hv' hv)]
          rw [hvals']
          refine gsim_goto hok hF' hd' hBm' hreach' hs' hSm ?_ hS (assign_same hsame' _ _) (fun _ => rfl) ?_ hlink
          · unfold LBlock.succs; rw [hn]; simp
          · refine hrest'.env fun F3 hF3 hr3 o3 ho3 => ?_
            rw [hF'] at hF3
            simp only [Option.some.injEq] at hF3
            subst hF3
            rw [assign_notin _ _ _ _ (ok'.keeps hr3 o3 ho3 B' hBm').2.1]
      · simp at hs
  | halt =>
    rw [hexit] at hs hlast
    simp only [Option.some.injEq] at hs hlast
    subst hs
    rw [append_assoc, append_assoc] at hrun
    exact Or.inr ⟨_, _, rfl, .stop hcode hlast (by simp) hrun, rfl, rfl, hlink⟩

include hok hcomp in
theorem gsim_start {F : Fn} (hF : P.fns P.main = some F) (env : String → V) (w : σ) (m : μ) (hL : L ⟨P.main, F.graph.start, env, [], w⟩ m) (below : List V) :
    GSim P I dest L ⟨P.main, F.graph.start, env, [], w⟩ ⟨P.main, F.graph.start, below, m⟩ := by
  have ok := hok _ F hF
  obtain ⟨S, hS, hSid, hS0⟩ := ok.start
  have hSb : F.graph.block F.graph.start = some S := by
    cases hc : F.graph.block F.graph.start with
    | none =>
      have := find?_eq_none.1 hc S hS
      simp [hSid] at this
    | some S' =>
      obtain ⟨h1, h2⟩ := block_some hc
      rw [same_id ok.wf h1 hS (h2.trans hSid.symm)]
  obtain ⟨st, comp⟩ := hcomp _ F hF
  obtain ⟨src, tgt, hspec⟩ := (layouts_cover ok.wf ok.one comp.layouts).1 _ .start
  rw [← hSid] at hspec
  have hsrc := (layout_of_start ok.wf ok.one comp.layouts hS hS0 hspec).1
  rw [ok.inputs rfl, prefix_nil] at hsrc
  subst hsrc
  exact ⟨rfl, rfl, hL, F, S, st, [], tgt, [], below, hF, hSb, hSid ▸ .start, comp.layouts, hspec, rfl, ⟨rfl, by simp⟩, .main⟩

/-- The program and the machine are at the same block, or have ended with the same operation on the same arguments. -/
def GAgree (L : Config V σ → μ → Prop) (H : σ → μ → Prop) : Config V σ ⊕ Halted V σ → GConfig V μ ⊕ Halted V μ → Prop
  | .inl c, .inl m => m.fn = c.fn ∧ m.block = c.block ∧ L c m.mem
  | .inr h, .inr h' => h'.op = h.op ∧ h'.args = h.args ∧ H h.world h'.world
  | _, _ => False

include hok hcomp in
theorem gsim_runs {c : Config V σ} {tr : List (String × String × σ)} {x : Config V σ ⊕ Halted V σ} (hr : Runs P I c tr x)
    {m : GConfig V μ} (h : GSim P I dest L c m) :
    ∃ y, GRuns (I.num 0) code dest m (tr.map fun t => (t.1, t.2.1)) y ∧ GAgree L H x y := by
  induction hr generalizing m with
  | nil c => exact ⟨.inl m, .nil m, h.1, h.2.1, h.2.2.1⟩
  | halt hs =>
    rcases gsim_step hok hcomp h hs with ⟨_, h', _⟩ | ⟨hl, hl', h', hm, ha⟩
    · simp at h'
    · simp only [map_cons, map_nil]
      rw [← h.1, ← h.2.1]
      simp only [Sum.inr.injEq] at h'
      subst h'
      exact ⟨_, .halt hm, ha⟩
  | cons hs _ ih =>
    rcases gsim_step hok hcomp h hs with ⟨c', h', m', hm, hsim⟩ | ⟨hl, _, h', _⟩
    · simp only [Sum.inl.injEq] at h'
      subst h'
      obtain ⟨y, hy, ha⟩ := ih hsim
      simp only [map_cons]
      rw [← h.1, ← h.2.1]
      exact ⟨y, .cons hm hy, ha⟩
    · simp at h'

end
end Grey.Program
