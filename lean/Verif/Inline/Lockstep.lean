/-
One step of the object before inlining corresponds to one step after it.
-/
import Verif.Inline.Sim
namespace Grey.Inline
open List Grey.Cfg

section
variable {O O' : Obj} {h : Option String} {f : String} {H F : Component} {s b : String} {k : Nat} {blk : Block} {call : Instr}
  {G' : BlockList} (S : Site O h f H F s b k blk call) (A : After O O' h f H G') (Sh : Shape F call s b k blk H.body G')
  {V W : Type} {base : String → V}

namespace Site
include S

omit S in
theorem start_eq (Sh : Shape F call s b k blk H.body G') : G'.start = H.body.start.map (target b) := by
  rw [Sh.start]
  cases H.body.start with
  | none => simp
  | some t =>
    by_cases ht : t = b
    · simp [ht, target]
    · simp [ht, target]

include A

theorem fn_none {g : String} (hg : g ≠ f) : O'.fns g = none ↔ O.fns g = none := by
  by_cases hh : h = some g
  · have h1 : O'.fns g = some ⟨H.args, G'⟩ := by have := A.host; rw [hh] at this; exact this
    have h2 : O.fns g = some H := by have := S.comp; rw [hh] at this; exact this
    rw [h1, h2]; simp
  · have h1 : O'.fns g = O.fns g := A.other (some g) (Ne.symm hh) (by simpa using hg)
    rw [h1]

include Sh

/-- A call of another function. -/
theorem call_rel {i i' : Instr} {is is' : List Instr} {Fg : Component} (hne : i.op ≠ f) (hg : O.fns i.op = some Fg) {fr fr' : Frame V}
    {st st' : List (Frame V × List String)} {w : W} (hop : i'.op = i.op) (hvals : i'.ins.map fr'.env = i.ins.map fr.env)
    (hst : StackRel O h f H F b k blk call base (({ fr with rest := is }, i.outs) :: st) (({ fr' with rest := is' }, i'.outs) :: st')) :
    ∃ Fg', O'.fns i'.op = some Fg' ∧ outRel (ConfRel O h f H F b k blk call base) Eq (callFn base Fg i is ⟨fr, st, w⟩)
      (callFn base Fg' i' is' ⟨fr', st', w⟩) := by
  have hlen : i'.ins.length = i.ins.length := by rw [← length_map (f := fr'.env), hvals, length_map]
  rw [hop]
  by_cases hh : h = some i.op
  · have h1 : O'.fns i.op = some ⟨H.args, G'⟩ := by have := A.host; rw [hh] at this; exact this
    have h2 : O.fns i.op = some H := by have := S.comp; rw [hh] at this; exact this
    rw [hg] at h2
    cases h2
    refine ⟨_, h1, ?_⟩
    unfold callFn
    rw [hlen]
    by_cases hl : i.ins.length = H.args.length
    · simp only [if_pos hl]
      rw [start_eq Sh]
      cases hs0 : H.body.start with
      | none => trivial
      | some s0 =>
        simp only [Option.map_some]
        rw [hvals, hop, ← hh]
        refine S.goto_host_start Sh hs0 ?_ hst w
        intro v hv
        rw [assign_not_mem]
        intro hin
        have := S.ssaH.noConst v (mem_append.2 (Or.inl (mem_reverse.1 (zip_fst_sub hin))))
        rw [hv] at this; cases this
    · simp only [if_neg hl]
      trivial
  · have h1 : O'.fns i.op = O.fns i.op := A.other (some i.op) (Ne.symm hh) (by simpa using hne)
    refine ⟨Fg, by rw [h1, hg], ?_⟩
    unfold callFn
    rw [hlen]
    by_cases hl : i.ins.length = Fg.args.length
    · simp only [if_pos hl]
      cases hs0 : Fg.body.start with
      | none => trivial
      | some s0 =>
        simp only
        rw [hvals, hop]
        unfold goto
        cases hT : Fg.body.get s0 with
        | none => trivial
        | some T =>
          simp only
          cases enter T none (assign base (Fg.args.reverse.zip (i.ins.map fr.env))) with
          | none => trivial
          | some e => exact ConfRel.plain ⟨Ne.symm hh, by simpa using hne, Fg, T, hg, hT, suffix_rfl⟩ hst
    · simp only [if_neg hl]
      trivial

omit A Sh in
/-- The function does not contain its return at other places than its exits. -/
theorem op_not_return {x : String} {X : Block} (hX : F.body.get x = some X) {i : Instr} {is : List Instr} (hs : i :: is <:+ code X)
    (hr : x ∈ F.body.returns → is ≠ []) : i.op ≠ "functionReturn" := by
  intro ho
  obtain ⟨n, hn⟩ := getElem?_of_mem (code_mem (suffix_head_mem hs))
  have hjt := (S.onlyReturns x X hX n i hn ho).1
  have hx : x ∈ F.body.returns := (S.exits.returns x).2 ⟨X, hX, hjt⟩
  obtain ⟨r, pre, _, _, _, _, _, h6, _, h8⟩ := S.ret_block hx hX
  rw [h6] at hs
  obtain ⟨t, ht⟩ := hs
  have hne := hr hx
  rw [← dropLast_concat_getLast hne] at ht
  have ht2 : (t ++ i :: is.dropLast) ++ [is.getLast hne] = pre.filter (fun i => !isPhi i) ++ [r] := by rw [← ht]; simp
  have := (append_inj' ht2 rfl).1
  have hin : i ∈ pre := (mem_filter.1 (show i ∈ pre.filter (fun i => !isPhi i) from by rw [← this]; simp)).1
  exact h8 i hin ho

omit A Sh in
theorem callee_op {x : String} {X : Block} (hX : F.body.get x = some X) {i : Instr} (hi : i ∈ X.instrs) : i.op ≠ f := by
  intro ho
  obtain ⟨n, hn⟩ := getElem?_of_mem hi
  exact S.other (S.only (some f) F x X S.fn hX n i hn ho).1.symm

omit A Sh in
/-- The results of an instruction of the function are assigned. -/
theorem callee_assign {x : String} {X : Block} {j : Instr} {rest : List Instr} {env envH env' : String → V}
    (hX : F.body.get x = some X) (hs : j :: rest <:+ code X) (he : EnvRel F (bothMap F call) base x (j :: rest) env env')
    (hh : EnvRel H (outMap F call) base b (call :: blk.instrs.drop (k + 1)) envH env') {vs : List V} (hl : vs.length = j.outs.length) :
    EnvRel F (bothMap F call) base x rest (assign env (j.outs.zip vs)) (assign env' ((renameInstr (bothMap F call) j).outs.zip vs)) ∧
    EnvRel H (outMap F call) base b (call :: blk.instrs.drop (k + 1)) envH (assign env' ((renameInstr (bothMap F call) j).outs.zip vs)) := by
  have hm := code_mem (suffix_head_mem hs)
  have h1 := he.assign (vs := vs) (fun v hv w hw e => S.in_inj hX hm hv (by
      by_contra hd
      exact hw (clear_of_not_def hd (.instr he.reach (by simp)))) e)
    (fun v hv => ⟨(S.both_def hX hm hv).1, (S.both_def hX hm hv).2.1⟩) hl
  refine ⟨h1, S.keep_host hh (fun v hv => (h1.consts v hv).2) ?_⟩
  intro y hy
  apply assign_outs_other
  intro v hv hvy
  exact hy (hvy ▸ (S.both_def hX hm hv).2.2)

omit A Sh in
/-- The results of an instruction of the caller are assigned. -/
theorem host_assign {x : String} {X : Block} {j : Instr} {rest : List Instr} {env env' : String → V} (hX : H.body.get x = some X)
    (hs : j :: rest <:+ code X) (hj : j.op ≠ f) (he : EnvRel H (outMap F call) base x (j :: rest) env env') {vs : List V}
    (hl : vs.length = j.outs.length) :
    EnvRel H (outMap F call) base x rest (assign env (j.outs.zip vs)) (assign env' ((renameInstr (outMap F call) j).outs.zip vs)) := by
  refine he.assign (fun v hv w hw e => S.out_inj_instr hX hs hj he.reach hv hw e) (fun v hv => ?_) hl
  have h1 := S.ssaH.noConst v (outs_mem_defs hX (code_mem (suffix_head_mem hs)) hv)
  rw [out_not_out (S.not_out_of hX hs hj hv)]
  exact ⟨h1, h1⟩

omit A Sh in
/-- A return from another function. -/
theorem return_rel {i i' : Instr} {fr fr' : Frame V} {st st' : List (Frame V × List String)} {w : W}
    (hvals : i'.ins.map fr'.env = i.ins.map fr.env) (hst : StackRel O h f H F b k blk call base st st') :
    outRel (ConfRel O h f H F b k blk call base) Eq (returnFn i ⟨fr, st, w⟩) (returnFn i' ⟨fr', st', w⟩) := by
  have hlen : i'.ins.length = i.ins.length := by rw [← length_map (f := fr'.env), hvals, length_map]
  unfold returnFn
  cases hst with
  | nil => trivial
  | @plain fr0 outs _ _ hp hst =>
    simp only
    rw [hlen, hvals]
    by_cases hl : i.ins.length = outs.length
    · rw [if_pos hl, if_pos hl]
      exact ConfRel.plain hp hst
    · rw [if_neg hl, if_neg hl]; trivial
  | @host x x' X j rest rest' env env' _ _ hX hs hj hp he hst =>
    simp only
    have hlo : (renameInstr (outMap F call) j).outs.length = j.outs.length := by simp [renameInstr]
    rw [hlen, hvals, hlo]
    by_cases hl : i.ins.length = j.outs.length
    · rw [if_pos hl, if_pos hl]
      exact ConfRel.host hp (S.host_assign hX hs hj he (by simpa using hl)) hst
    · rw [if_neg hl, if_neg hl]; trivial
  | @callee x X j rest env envH env' _ _ hX hs hr he hh hst =>
    simp only
    have hlo : (renameInstr (bothMap F call) j).outs.length = j.outs.length := by simp [renameInstr]
    rw [hlen, hvals, hlo]
    by_cases hl : i.ins.length = j.outs.length
    · rw [if_pos hl, if_pos hl]
      obtain ⟨a1, a2⟩ := S.callee_assign hX hs he hh (vs := i.ins.map fr.env) (by simpa using hl)
      exact ConfRel.callee hX ((suffix_cons _ _).trans hs) hr a1 a2 hst
    · rw [if_neg hl, if_neg hl]; trivial

omit A Sh in
/-- Other operations. -/
theorem operate_rel (sem : Sem V W) {i i' : Instr} {is is' : List Instr} {fr fr' : Frame V} {st st' : List (Frame V × List String)} {w : W}
    (hop : i'.op = i.op) (hlo : i'.outs.length = i.outs.length) (hvals : i'.ins.map fr'.env = i.ins.map fr.env)
    (hr : ∀ (vs : List V) (w : W), vs.length = i.outs.length → ConfRel O h f H F b k blk call base
      ⟨{ fr with rest := is, env := assign fr.env (i.outs.zip vs) }, st, w⟩
      ⟨{ fr' with rest := is', env := assign fr'.env (i'.outs.zip vs) }, st', w⟩) :
    outRel (ConfRel O h f H F b k blk call base) Eq (operate sem i is ⟨fr, st, w⟩) (operate sem i' is' ⟨fr', st', w⟩) := by
  unfold operate
  simp only
  rw [hop, hvals, hlo]
  generalize sem.op i.op (i.ins.map fr.env) w = r
  cases r.2.2 with
  | false => simp [outRel]
  | true =>
    simp only [if_true]
    by_cases hl : r.1.length = i.outs.length
    · rw [if_pos hl, if_pos hl]
      exact hr r.1 r.2.1 hl
    · rw [if_neg hl, if_neg hl]; trivial

/-- An instruction, in whatever activation, that is neither the call nor its return. -/
theorem instr_rel (sem : Sem V W) {i i' : Instr} {is is' : List Instr} {fr fr' : Frame V} {st st' : List (Frame V × List String)} {w : W}
    (hne : i.op ≠ f) (hop : i'.op = i.op) (hlo : i'.outs.length = i.outs.length) (hvals : i'.ins.map fr'.env = i.ins.map fr.env)
    (hret : i.op = "functionReturn" → StackRel O h f H F b k blk call base st st')
    (hcall : ∀ Fg, O.fns i.op = some Fg →
      StackRel O h f H F b k blk call base (({ fr with rest := is }, i.outs) :: st) (({ fr' with rest := is' }, i'.outs) :: st'))
    (hr : ∀ (vs : List V) (w : W), vs.length = i.outs.length → ConfRel O h f H F b k blk call base
      ⟨{ fr with rest := is, env := assign fr.env (i.outs.zip vs) }, st, w⟩
      ⟨{ fr' with rest := is', env := assign fr'.env (i'.outs.zip vs) }, st', w⟩) :
    outRel (ConfRel O h f H F b k blk call base) Eq
      (match O.fns i.op with
        | some Fg => callFn base Fg i is ⟨fr, st, w⟩
        | none => if i.op = "functionReturn" then returnFn i ⟨fr, st, w⟩ else operate sem i is ⟨fr, st, w⟩)
      (match O'.fns i'.op with
        | some Fg => callFn base Fg i' is' ⟨fr', st', w⟩
        | none => if i'.op = "functionReturn" then returnFn i' ⟨fr', st', w⟩ else operate sem i' is' ⟨fr', st', w⟩) := by
  cases hg : O.fns i.op with
  | some Fg =>
    obtain ⟨Fg', h1, h2⟩ := S.call_rel A Sh (w := w) hne hg hop hvals (hcall Fg hg)
    rw [h1]
    exact h2
  | none =>
    have h1 : O'.fns i'.op = none := by rw [hop]; exact (S.fn_none A hne).2 hg
    rw [h1]
    simp only
    rw [hop]
    by_cases ho : i.op = "functionReturn"
    · rw [if_pos ho, if_pos ho]
      exact S.return_rel hvals (hret ho)
    · rw [if_neg ho, if_neg ho]
      exact S.operate_rel sem hop hlo hvals hr

/-- One step. -/
theorem step_rel (sem : Sem V W) {c c' : Conf V W} (hc : ConfRel O h f H F b k blk call base c c') :
    outRel (ConfRel O h f H F b k blk call base) Eq (step sem base O c) (step sem base O' c') := by
  unfold step
  cases hc with
  | @plain fr st st' w hp hst =>
    obtain ⟨h1, h2, C, B, hC, hB, hs⟩ := hp
    simp only
    rw [A.other fr.comp h1 h2, hC]
    simp only
    cases hr : fr.rest with
    | nil =>
      simp only
      rw [hB]
      simp only
      refine leave_rel (g := id) (ρ := id) sem (by simp) (by simp) (by simp) (fun _ _ => rfl) rfl ?_
      intro t _
      unfold goto
      cases hT : C.body.get t with
      | none => simp only [id, hT]; trivial
      | some T =>
        simp only [id, hT]
        cases enter T (some fr.block) fr.env with
        | none => trivial
        | some e => exact ConfRel.plain ⟨h1, h2, C, T, hC, hT, suffix_rfl⟩ hst
    | cons i is =>
      rw [hr] at hs
      have hne : i.op ≠ f := by
        intro ho
        obtain ⟨n, hn⟩ := getElem?_of_mem (code_mem (suffix_head_mem hs))
        exact h1 (S.only fr.comp C fr.block B hC hB n i hn ho).1
      have hpl : ∀ env : String → V, Plain O h f { fr with rest := is, env := env } :=
        fun env => ⟨h1, h2, C, B, hC, hB, (suffix_cons _ _).trans hs⟩
      refine S.instr_rel A Sh sem hne rfl rfl rfl (fun _ => hst) (fun _ _ => StackRel.plain (hpl fr.env) hst) ?_
      intro vs w hl
      exact ConfRel.plain (hpl _) hst
  | @host x x' rest rest' env env' st st' w hp he hst =>
    simp only
    rw [S.comp, A.host]
    simp only
    obtain ⟨X, hX, hs⟩ := S.point_some hp
    cases hr : rest with
    | nil =>
      subst hr
      have hx : x' = (if x = b then secondId b else x) ∧ rest' = [] ∧ ∃ X', G'.get x' = some X' ∧ X'.jumpTo = X.jumpTo.map (target b) ∧
          X'.fallsTo = X.fallsTo.map (target b) ∧ X'.cond = X.cond.map (outMap F call) := by
        generalize hr : ([] : List Instr) = rest at hp
        cases hp with
        | @other x Y _ hx hX' hs' =>
          subst hr
          rw [hX] at hX'
          cases hX'
          exact ⟨by rw [if_neg hx], rfl, _, S.get_other Sh hx hX, rfl, rfl, rfl⟩
        | first hs' => simp at hr
        | second hs' =>
          subst hr
          rw [S.block] at hX
          cases hX
          refine ⟨by rw [if_pos rfl], rfl, _, get_second Sh, ?_, ?_, rfl⟩
          · show blk.jumpTo = _
            cases hj : blk.jumpTo with
            | none => rfl
            | some t =>
              have : t ≠ b := by rintro rfl; exact S.self (mem_succs.2 (Or.inl hj))
              simp [target, this]
          · show blk.fallsTo = _
            cases hj : blk.fallsTo with
            | none => rfl
            | some t =>
              have : t ≠ b := by rintro rfl; exact S.self (mem_succs.2 (Or.inr hj))
              simp [target, this]
      obtain ⟨e1, rfl, X', e2, e3, e4, e5⟩ := hx
      rw [hX]
      simp only
      rw [e2]
      simp only
      refine leave_rel sem e3 e4 e5 ?_ rfl ?_
      · intro y hy
        exact he.value (fun v hv => out_const hv) fun hcy => S.ssaH.cond x X y hX hy hcy
      · intro t ht
        exact S.goto_host Sh hX ht e1 he hst w
    | cons i is =>
      subst hr
      simp only
      by_cases hne : i.op = f
      · -- the call
        obtain ⟨rfl, hcl⟩ := S.is_call hX hs hne
        obtain ⟨hic, his⟩ := cons.inj hcl
        subst hic his
        have hpt : x' = firstId x ∧ rest' = [] := by
          generalize hr : i :: drop (k + 1) blk.instrs = rest at hp
          cases hp with
          | other hx _ _ => exact absurd rfl hx
          | @first pre hs' =>
            have := congrArg length hr
            simp at this
            subst this
            exact ⟨rfl, rfl⟩
          | second hs' =>
            have := hs'.length_le
            rw [← hr, length_cons] at this
            omega
        obtain ⟨rfl, rfl⟩ := hpt
        rw [hne, S.fn]
        simp only
        rw [get_first Sh]
        simp only
        unfold callFn
        rw [if_pos S.arity.symm, S.start]
        show outRel _ _ _ (goto G' h (some (firstId x)) s env' st' w)
        simp only
        rw [hne]
        refine S.goto_callee_start Sh ?_ ?_ he hst w
        · intro v hv
          have h1 := S.in_arg hv
          have h2 : env' (outMap F i (inMap F i v)) = env (inMap F i v) :=
            he.value (fun v hv => out_const hv) fun hcy => S.ssaH.ins x X i _ hX hs _ (S.in_arg_mem hv) hcy
          rw [bothMap, h2]
          symm
          apply assign_mem (zip_fst_nodup (nodup_reverse.2 S.args_nodup))
          rw [zip_map_right]
          exact mem_map.2 ⟨_, zip_reverse_mem S.arity h1, rfl⟩
        · intro v hv
          refine ⟨?_, (he.consts v hv).2⟩
          rw [assign_not_mem]
          intro hin
          have := S.args_var (mem_reverse.1 (zip_fst_sub hin))
          rw [hv] at this; cases this
      · obtain ⟨is', rfl, hp'⟩ := S.point_tail hne hp
        simp only
        refine S.instr_rel A Sh sem hne rfl (by simp [renameInstr]) (he.ins (fun v hv => out_const hv) S.ssaH hX hs) (fun _ => hst)
          (fun _ _ => StackRel.host hX hs hne hp' he hst) ?_
        intro vs w hl
        exact ConfRel.host hp' (S.host_assign hX hs hne he hl) hst
  | @callee x X rest env envH env' st st' w hX hs hr he hh hst =>
    simp only
    have hOf : O.comp (some f) = some F := S.fn
    rw [hOf, A.host]
    simp only
    cases hrest : rest with
    | nil =>
      subst hrest
      have hx : x ∉ F.body.returns := fun hx => hr hx rfl
      simp only [calleeRest, if_neg hx, map_nil]
      rw [hX, S.get_callee Sh hX]
      simp only
      refine leave_rel (g := id) (ρ := bothMap F call) sem ?_ ?_ ?_ ?_ rfl ?_
      · show (if x ∈ F.body.returns then some (secondId b) else X.jumpTo) = _
        rw [if_neg hx]; simp
      · show X.fallsTo = _
        simp
      · show (X.cond.map (inMap F call)).map (outMap F call) = _
        rw [Option.map_map]; rfl
      · intro y hy
        exact he.value (fun v hv => both_const hv) fun hcy => S.ssaF.cond x X y hX hy hcy
      · intro t ht
        exact S.goto_callee Sh hX ht he hh hst w
    | cons i is =>
      subst hrest
      by_cases hlast : x ∈ F.body.returns ∧ is = []
      · -- the return
        obtain ⟨hx, rfl⟩ := hlast
        obtain ⟨h1, h2, h3⟩ := S.goto_second Sh hX hx hs he hh hst w
        simp only
        rw [h1, S.noReturn]
        simp only [if_true, calleeRest, if_pos hx, dropLast_singleton, map_nil]
        unfold returnFn
        simp only
        rw [if_pos h2, S.get_callee Sh hX]
        simp only
        have hj : (renameBlock (outMap F call) (calleeBlock F call s b x X)).jumpTo = some (secondId b) := by
          show (if x ∈ F.body.returns then some (secondId b) else X.jumpTo) = _
          rw [if_pos hx]
        have hf : (renameBlock (outMap F call) (calleeBlock F call s b x X)).fallsTo = none := by
          show X.fallsTo = none
          obtain ⟨_, _, _, _, _, _, h5, _⟩ := S.ret_block hx hX
          cases hfx : X.fallsTo with
          | none => rfl
          | some t =>
            have : t ∈ X.succs := mem_succs.2 (Or.inr hfx)
            rw [h5] at this; cases this
        unfold leaveBlock
        rw [hj, hf]
        exact h3
      · have hr' : x ∈ F.body.returns → is ≠ [] := fun hx h0 => hlast ⟨hx, h0⟩
        have hne := S.callee_op hX (code_mem (suffix_head_mem hs))
        rw [calleeRest_tail hr']
        simp only
        refine S.instr_rel A Sh sem hne rfl (by simp [renameInstr]) (he.ins (fun v hv => both_const hv) S.ssaF hX hs)
          (fun ho => absurd ho (S.op_not_return hX hs hr')) (fun _ _ => StackRel.callee hX hs hr' he hh hst) ?_
        intro vs w hl
        obtain ⟨a1, a2⟩ := S.callee_assign hX hs he hh hl
        exact ConfRel.callee hX ((suffix_cons _ _).trans hs) hr' a1 a2 hst

/-- The start of the main code. -/
theorem start_rel (w : W) : outRel (ConfRel O h f H F b k blk call base) Eq (Inline.start base O w) (Inline.start base O' w) := by
  unfold Inline.start
  by_cases hh : h = none
  · subst hh
    have h1 : O.main = H.body := by have := S.comp; simp only [Obj.comp, Option.some.injEq] at this; rw [← this]
    have h2 : O'.main = G' := by
      have := A.host
      simp only [Obj.comp, Option.some.injEq, Component.mk.injEq] at this
      exact this.2
    rw [h1, h2, start_eq Sh]
    cases hs0 : H.body.start with
    | none => trivial
    | some s0 => exact S.goto_host_start Sh hs0 (fun _ _ => rfl) StackRel.nil w
  · have h1 : O'.main = O.main := by
      have := A.other none (Ne.symm hh) (by simp)
      simp only [Obj.comp, Option.some.injEq, Component.mk.injEq] at this
      exact this.2
    rw [h1]
    cases hs0 : O.main.start with
    | none => trivial
    | some s0 =>
      simp only
      unfold goto
      cases hT : O.main.get s0 with
      | none => trivial
      | some T =>
        simp only
        cases enter T none base with
        | none => trivial
        | some e => exact ConfRel.plain ⟨Ne.symm hh, by simp, ⟨[], O.main⟩, T, rfl, hT, suffix_rfl⟩ StackRel.nil

/-- The whole executions. -/
theorem sameRuns : SameRuns O O' := by
  intro V W sem base w
  have := lockstep (f := run sem base O w) (g := run sem base O' w) (Q := Eq)
    (R := fun c c' => match c, c' with
      | none, none => True
      | some c, some c' => ConfRel O h f H F b k blk call base c c'
      | _, _ => False) (by
    intro c c' hc
    have lift : ∀ {o o' : Out (Conf V W) W}, outRel (ConfRel O h f H F b k blk call base) Eq o o' → outRel (fun c c' => match c, c' with
      | none, none => True
      | some c, some c' => ConfRel O h f H F b k blk call base c c'
      | _, _ => False) Eq (o.map some) (o'.map some) := by
      intro o o' ho
      cases o <;> cases o' <;> exact ho
    match c, c', hc with
    | none, none, _ => exact lift (S.start_rel A Sh w)
    | some c, some c', hc => exact lift (S.step_rel A Sh sem hc)) (c := none) (c' := none) trivial
  refine ⟨fun s => ⟨?_, ?_⟩, this.2.2⟩
  · intro hs
    obtain ⟨s', h1, rfl⟩ := this.1 s hs
    exact h1
  · intro hs
    obtain ⟨s', h1, rfl⟩ := this.2.1 s hs
    exact h1

end Site
end

/-- The object after inlining the only call of a function. -/
theorem Site.after {O : Obj} {h : Option String} {f : String} {H F : Component} {s b : String} {k : Nat} {blk : Block} {call : Instr}
    (S : Site O h f H F s b k blk call) : ∃ O' G', inlineObj k b h f O = some O' ∧ inlineCall k b f F H.body = some G' ∧
      After O O' h f H G' ∧ Shape F call s b k blk H.body G' := by
  obtain ⟨G', h1, Sh⟩ := inline_shape S.fits
  have e : inlineObj k b h f O = some { O.set h G' with fns := fun x => if x = f then none else (O.set h G').fns x } := by
    unfold inlineObj
    rw [S.comp, Option.bind_some, S.fn, Option.bind_some, h1]
    rfl
  refine ⟨_, G', e, h1, ⟨?_, ?_, by simp⟩, Sh⟩
  · cases h with
    | none =>
      have := S.comp
      simp only [Obj.comp, Option.some.injEq] at this
      simp only [Obj.comp, Obj.set, ← this]
    | some g =>
      have hg : g ≠ f := by rintro rfl; exact S.other rfl
      have := S.comp
      simp only [Obj.comp] at this
      simp [Obj.comp, Obj.set, hg, this]
  · intro c hc hcf
    cases h with
    | none =>
      cases c with
      | none => exact absurd rfl hc
      | some g =>
        have hg : g ≠ f := by rintro rfl; exact hcf rfl
        simp [Obj.comp, Obj.set, hg]
    | some g0 =>
      cases c with
      | none => rfl
      | some g =>
        have hg : g ≠ f := by rintro rfl; exact hcf rfl
        have hg0 : g ≠ g0 := by rintro rfl; exact hc rfl
        simp [Obj.comp, Obj.set, hg, hg0]

/-- **C56.** Inlining the only call of a function succeeds and preserves the executions of the object. -/
theorem inlining_preserves {O : Obj} {h : Option String} {f : String} {H F : Component} {s b : String} {k : Nat} {blk : Block} {call : Instr}
    (S : Site O h f H F s b k blk call) : ∃ O', inlineObj k b h f O = some O' ∧ O'.fns f = none ∧ SameRuns O O' := by
  obtain ⟨O', G', e, _, A, Sh⟩ := S.after
  exact ⟨O', e, A.gone, S.sameRuns A Sh⟩

end Grey.Inline
