/-
The object before and after inlining run in lockstep: the call is the edge from the first half to the code of the function, the
return is the edge from an exit to the second half.
-/
import Verif.Inline.Env
namespace Grey.Inline
open List Grey.Cfg

/-! ### Renamed blocks -/

theorem isPhi_rename (r : String → String) (i : Instr) : isPhi (renameInstr r i) = isPhi i := rfl

theorem phis_rename (r : String → String) (B : Block) : phis (renameBlock r B) = (phis B).map (renameInstr r) := by
  unfold phis renameBlock
  rw [filter_map]
  rfl

theorem code_rename (r : String → String) (B : Block) : code (renameBlock r B) = (code B).map (renameInstr r) := by
  unfold code renameBlock
  rw [filter_map]
  rfl

/-- The names of the function after inlining. -/
def bothMap (F : Component) (call : Instr) (x : String) : String := outMap F call (inMap F call x)

theorem renameInstr_both (F : Component) (call : Instr) (i : Instr) :
    renameInstr (outMap F call) (renameInstr (inMap F call) i) = renameInstr (bothMap F call) i := by
  simp only [renameInstr, map_map]
  rfl

/-- The instructions of the function still to be executed, without the return. -/
def calleeRest (F : Component) (call : Instr) (x : String) (rest : List Instr) : List Instr :=
  (if x ∈ F.body.returns then rest.dropLast else rest).map (renameInstr (bothMap F call))

/-- The block to which an edge of the caller leads. -/
def target (b t : String) : String := if t = b then firstId b else t

/-- What changes in the object. -/
structure After (O O' : Obj) (h : Option String) (f : String) (H : Component) (G' : BlockList) : Prop where
  host : O'.comp h = some ⟨H.args, G'⟩
  other : ∀ c, c ≠ h → c ≠ some f → O'.comp c = O.comp c
  gone : O'.fns f = none

/-- Corresponding points of the caller. -/
inductive Point (H F : Component) (call : Instr) (b : String) (k : Nat) (blk : Block) : String → List Instr → String → List Instr → Prop
  | other {x : String} {X : Block} {rest : List Instr} (hx : x ≠ b) (hX : H.body.get x = some X) (hs : rest <:+ code X) :
      Point H F call b k blk x rest x (rest.map (renameInstr (outMap F call)))
  | first {pre : List Instr} (hs : pre <:+ (blk.instrs.take k).filter fun i => !isPhi i) :
      Point H F call b k blk b (pre ++ call :: blk.instrs.drop (k + 1)) (firstId b) (pre.map (renameInstr (outMap F call)))
  | second {rest : List Instr} (hs : rest <:+ blk.instrs.drop (k + 1)) :
      Point H F call b k blk b rest (secondId b) (rest.map (renameInstr (outMap F call)))

/-- An activation that inlining does not concern. -/
def Plain {V : Type} (O : Obj) (h : Option String) (f : String) (fr : Frame V) : Prop :=
  fr.comp ≠ h ∧ fr.comp ≠ some f ∧ ∃ C B, O.comp fr.comp = some C ∧ C.body.get fr.block = some B ∧ fr.rest <:+ code B

/-- The waiting activations. -/
inductive StackRel {V : Type} (O : Obj) (h : Option String) (f : String) (H F : Component) (b : String) (k : Nat) (blk : Block)
    (call : Instr) (base : String → V) : List (Frame V × List String) → List (Frame V × List String) → Prop
  | nil : StackRel O h f H F b k blk call base [] []
  | plain {fr : Frame V} {outs : List String} {st st' : List (Frame V × List String)} (hp : Plain O h f fr)
      (hst : StackRel O h f H F b k blk call base st st') :
      StackRel O h f H F b k blk call base ((fr, outs) :: st) ((fr, outs) :: st')
  | host {x x' : String} {X : Block} {j : Instr} {rest rest' : List Instr} {env env' : String → V} {st st' : List (Frame V × List String)}
      (hX : H.body.get x = some X) (hs : j :: rest <:+ code X) (hj : j.op ≠ f) (hp : Point H F call b k blk x rest x' rest')
      (he : EnvRel H (outMap F call) base x (j :: rest) env env') (hst : StackRel O h f H F b k blk call base st st') :
      StackRel O h f H F b k blk call base ((⟨h, x, rest, env⟩, j.outs) :: st)
        ((⟨h, x', rest', env'⟩, (renameInstr (outMap F call) j).outs) :: st')
  | callee {x : String} {X : Block} {j : Instr} {rest : List Instr} {env envH env' : String → V} {st st' : List (Frame V × List String)}
      (hX : F.body.get x = some X) (hs : j :: rest <:+ code X) (hr : x ∈ F.body.returns → rest ≠ [])
      (he : EnvRel F (bothMap F call) base x (j :: rest) env env')
      (hh : EnvRel H (outMap F call) base b (call :: blk.instrs.drop (k + 1)) envH env')
      (hst : StackRel O h f H F b k blk call base st st') :
      StackRel O h f H F b k blk call base
        ((⟨some f, x, rest, env⟩, j.outs) :: (⟨h, b, blk.instrs.drop (k + 1), envH⟩, call.outs) :: st)
        ((⟨h, x, calleeRest F call x rest, env'⟩, (renameInstr (bothMap F call) j).outs) :: st')

/-- The configurations. -/
inductive ConfRel {V W : Type} (O : Obj) (h : Option String) (f : String) (H F : Component) (b : String) (k : Nat) (blk : Block)
    (call : Instr) (base : String → V) : Conf V W → Conf V W → Prop
  | plain {fr : Frame V} {st st' : List (Frame V × List String)} {w : W} (hp : Plain O h f fr)
      (hst : StackRel O h f H F b k blk call base st st') : ConfRel O h f H F b k blk call base ⟨fr, st, w⟩ ⟨fr, st', w⟩
  | host {x x' : String} {rest rest' : List Instr} {env env' : String → V} {st st' : List (Frame V × List String)} {w : W}
      (hp : Point H F call b k blk x rest x' rest') (he : EnvRel H (outMap F call) base x rest env env')
      (hst : StackRel O h f H F b k blk call base st st') :
      ConfRel O h f H F b k blk call base ⟨⟨h, x, rest, env⟩, st, w⟩ ⟨⟨h, x', rest', env'⟩, st', w⟩
  | callee {x : String} {X : Block} {rest : List Instr} {env envH env' : String → V} {st st' : List (Frame V × List String)} {w : W}
      (hX : F.body.get x = some X) (hs : rest <:+ code X) (hr : x ∈ F.body.returns → rest ≠ [])
      (he : EnvRel F (bothMap F call) base x rest env env')
      (hh : EnvRel H (outMap F call) base b (call :: blk.instrs.drop (k + 1)) envH env')
      (hst : StackRel O h f H F b k blk call base st st') :
      ConfRel O h f H F b k blk call base
        ⟨⟨some f, x, rest, env⟩, (⟨h, b, blk.instrs.drop (k + 1), envH⟩, call.outs) :: st, w⟩
        ⟨⟨h, x, calleeRest F call x rest, env'⟩, st', w⟩

/-- Leaving related blocks. -/
theorem leave_rel {V W : Type} {R : Conf V W → Conf V W → Prop} (sem : Sem V W) {G G' : BlockList} {B B' : Block} {c c' : Conf V W}
    {g ρ : String → String} (hj : B'.jumpTo = B.jumpTo.map g) (hf : B'.fallsTo = B.fallsTo.map g) (hc : B'.cond = B.cond.map ρ)
    (hv : ∀ x, B.cond = some x → c'.cur.env (ρ x) = c.cur.env x) (hw : c.world = c'.world)
    (hg : ∀ t ∈ B.succs, outRel R Eq (goto G c.cur.comp (some c.cur.block) t c.cur.env c.stack c.world)
      (goto G' c'.cur.comp (some c'.cur.block) (g t) c'.cur.env c'.stack c'.world)) :
    outRel R Eq (leaveBlock sem G B c) (leaveBlock sem G' B' c') := by
  unfold leaveBlock
  rw [hj, hf, hc]
  cases h1 : B.jumpTo with
  | none =>
    cases h2 : B.fallsTo with
    | none => exact hw
    | some t => exact hg t (mem_succs.2 (Or.inr h2))
  | some t =>
    cases h2 : B.fallsTo with
    | none => exact hg t (mem_succs.2 (Or.inl h1))
    | some e =>
      cases h3 : B.cond with
      | none => trivial
      | some x =>
        simp only [Option.map_some]
        rw [hv x h3]
        by_cases ht : sem.truth (c.cur.env x) = true
        · rw [if_pos ht, if_pos ht]
          exact hg t (mem_succs.2 (Or.inl h1))
        · rw [if_neg ht, if_neg ht]
          exact hg e (mem_succs.2 (Or.inr h2))

theorem zip_reverse_mem {α β : Type} {l : List α} {l' : List β} (hl : l.length = l'.length) {p : α × β} (h : p ∈ l.zip l'.reverse) :
    p ∈ l.reverse.zip l' := by
  have e : (l.reverse.zip l').reverse = l.zip l'.reverse := by
    unfold zip
    rw [reverse_zipWith (by simpa using hl), reverse_reverse]
  exact mem_reverse.1 (e ▸ h)

section
variable {O O' : Obj} {h : Option String} {f : String} {H F : Component} {s b : String} {k : Nat} {blk : Block} {call : Instr}
  {G' : BlockList} (S : Site O h f H F s b k blk call) (A : After O O' h f H G') (Sh : Shape F call s b k blk H.body G')

namespace Site
include S

/-! ### The code of the blocks -/

theorem F_ne {x : String} {X : Block} (hX : F.body.get x = some X) : x ≠ firstId b ∧ x ≠ secondId b ∧ x ≠ b := by
  refine ⟨?_, ?_, ?_⟩
  · rintro rfl; rw [S.freshF.2] at hX; cases hX
  · rintro rfl; rw [S.freshS.2] at hX; cases hX
  · rintro rfl; have := S.block; rw [S.disj _ X hX] at this; cases this

theorem H_ne {x : String} {X : Block} (hX : H.body.get x = some X) : x ≠ firstId b ∧ x ≠ secondId b ∧ F.body.get x = none := by
  refine ⟨?_, ?_, ?_⟩
  · rintro rfl; rw [S.freshF.1] at hX; cases hX
  · rintro rfl; rw [S.freshS.1] at hX; cases hX
  · cases hF : F.body.get x with
    | none => rfl
    | some Y => rw [S.disj x Y hF] at hX; cases hX

theorem ret_block {x : String} (hx : x ∈ F.body.returns) {X : Block} (hX : F.body.get x = some X) : ∃ i pre, X.instrs = pre ++ [i] ∧
    i.op = "functionReturn" ∧ i.ins.length = call.outs.length ∧ retOf F call x = i.ins.map (inMap F call) ∧ X.succs = [] ∧
    code X = pre.filter (fun i => !isPhi i) ++ [i] ∧ phis X = pre.filter isPhi ∧ ∀ j ∈ pre, j.op ≠ "functionReturn" := by
  obtain ⟨E, i, pre, hE, h1, h2, h3, h4, h5⟩ := S.ret_at hx
  rw [hX] at hE
  cases hE
  have hphi : isPhi i = false := by unfold isPhi; rw [h2]; decide
  refine ⟨i, pre, h1, h2, h3, h4, h5, ?_, ?_, ?_⟩
  · unfold code; rw [h1, filter_append]; simp [hphi]
  · unfold phis; rw [h1, filter_append]; simp [hphi]
  · intro j hj ho
    obtain ⟨n, hn⟩ := getElem?_of_mem hj
    have hlt := (List.getElem?_eq_some_iff.1 hn).1
    have := (S.onlyReturns x X hX n j (by rw [h1, getElem?_append_left hlt]; exact hn) ho).2
    rw [h1, length_append] at this
    simp at this
    omega

theorem callee_phis {x : String} {X : Block} (hX : F.body.get x = some X) :
    phis (renameBlock (outMap F call) (calleeBlock F call s b x X)) = (phis X).map (renameInstr (bothMap F call)) := by
  rw [phis_rename]
  have hb : phis (calleeBase F call X) = (phis X).map (renameInstr (inMap F call)) := phis_rename _ _
  have : phis (calleeBlock F call s b x X) = (phis X).map (renameInstr (inMap F call)) := by
    by_cases hx : x ∈ F.body.returns
    · obtain ⟨i, pre, h1, _, _, _, _, _, h2, _⟩ := S.ret_block hx hX
      rw [h2]
      unfold phis calleeBlock calleeBase unreturn renameBlock
      simp only [if_pos hx, h1, map_append, map_cons, map_nil, dropLast_concat]
      rw [filter_map]; rfl
    · rw [← hb]; unfold phis calleeBlock; simp only [if_neg hx]
  rw [this, map_map]
  apply map_congr_left
  intro i _
  exact renameInstr_both F call i

theorem callee_code {x : String} {X : Block} (hX : F.body.get x = some X) :
    code (renameBlock (outMap F call) (calleeBlock F call s b x X)) = calleeRest F call x (code X) := by
  rw [code_rename]
  have hb : code (calleeBase F call X) = (code X).map (renameInstr (inMap F call)) := code_rename _ _
  have : code (calleeBlock F call s b x X) = (if x ∈ F.body.returns then (code X).dropLast else code X).map (renameInstr (inMap F call)) := by
    by_cases hx : x ∈ F.body.returns
    · obtain ⟨i, pre, h1, _, _, _, _, h2, _, _⟩ := S.ret_block hx hX
      rw [h2, if_pos hx, dropLast_concat]
      unfold code calleeBlock calleeBase unreturn renameBlock
      simp only [if_pos hx, h1, map_append, map_cons, map_nil, dropLast_concat]
      rw [filter_map]; rfl
    · rw [if_neg hx, ← hb]; unfold code calleeBlock; simp only [if_neg hx]
  rw [this, calleeRest, map_map]
  apply map_congr_left
  intro i _
  exact renameInstr_both F call i

theorem first_code : code (renameBlock (outMap F call) (firstBlock s b k blk))
    = ((blk.instrs.take k).filter fun i => !isPhi i).map (renameInstr (outMap F call)) := code_rename _ _

theorem first_phis : phis (renameBlock (outMap F call) (firstBlock s b k blk)) = (phis blk).map (renameInstr (outMap F call)) := by
  rw [phis_rename, S.phis_blk]; rfl

theorem phisOf_phi {i : Instr} (hi : i ∈ phisOf F call) : isPhi i = true := by
  unfold phisOf at hi
  split at hi
  · cases hi
  · cases hi
  · rw [mem_reverse] at hi
    obtain ⟨p, _, rfl⟩ := mem_map.1 hi
    rfl

theorem second_code : code (renameBlock (outMap F call) (secondBlock F call b k blk))
    = (blk.instrs.drop (k + 1)).map (renameInstr (outMap F call)) := by
  rw [code_rename]
  congr 1
  unfold code secondBlock
  simp only
  rw [filter_append, show (phisOf F call).filter (fun i => !isPhi i) = [] from by
    rw [filter_eq_nil_iff]; intro i hi; rw [S.phisOf_phi hi]; simp, nil_append, filter_eq_self]
  intro i hi
  rw [S.phisFirst i hi]; rfl

theorem second_phis : phis (renameBlock (outMap F call) (secondBlock F call b k blk)) = (phisOf F call).map (renameInstr (outMap F call)) := by
  rw [phis_rename]
  congr 1
  unfold phis secondBlock
  simp only
  rw [filter_append, show (blk.instrs.drop (k + 1)).filter isPhi = [] from by
    rw [filter_eq_nil_iff]; intro i hi; rw [S.phisFirst i hi]; simp, append_nil, filter_eq_self]
  intro i hi
  exact S.phisOf_phi hi

theorem point_some {x x' : String} {rest rest' : List Instr} (hp : Point H F call b k blk x rest x' rest') : ∃ X, H.body.get x = some X ∧ rest <:+ code X := by
  cases hp with
  | other hx hX hs => exact ⟨_, hX, hs⟩
  | first hs =>
    refine ⟨_, S.block, ?_⟩
    rw [S.code_blk]
    obtain ⟨t, ht⟩ := hs
    exact ⟨t, by rw [← ht, append_assoc]⟩
  | second hs => exact ⟨_, S.block, (hs.trans (suffix_cons _ _)).trans S.call_suffix⟩

/-- An instruction other than the call. -/
theorem point_tail {x x' : String} {i : Instr} {is rest' : List Instr} (hne : i.op ≠ f)
    (hp : Point H F call b k blk x (i :: is) x' rest') : ∃ is', rest' = renameInstr (outMap F call) i :: is' ∧ Point H F call b k blk x is x' is' := by
  generalize hr : i :: is = rest at hp
  cases hp with
  | other hx hX hs =>
    subst hr
    exact ⟨_, rfl, .other hx hX ((suffix_cons _ _).trans hs)⟩
  | @first pre hs =>
    cases pre with
    | nil =>
      rw [nil_append, cons.injEq] at hr
      rw [hr.1] at hne
      exact absurd S.op hne
    | cons j pre =>
      rw [cons_append, cons.injEq] at hr
      obtain ⟨rfl, rfl⟩ := hr
      exact ⟨_, rfl, .first ((suffix_cons _ _).trans hs)⟩
  | second hs =>
    subst hr
    exact ⟨_, rfl, .second ((suffix_cons _ _).trans hs)⟩

omit S in
theorem calleeRest_tail {x : String} {i : Instr} {is : List Instr} (hr : x ∈ F.body.returns → is ≠ []) :
    calleeRest F call x (i :: is) = renameInstr (bothMap F call) i :: calleeRest F call x is := by
  unfold calleeRest
  by_cases hx : x ∈ F.body.returns
  · rw [if_pos hx, if_pos hx]
    cases is with
    | nil => exact absurd rfl (hr hx)
    | cons j is => rfl
  · rw [if_neg hx, if_neg hx]; rfl

omit S in
theorem both_const {x : String} (hx : isConst x = true) : bothMap F call x = x := by
  unfold bothMap; rw [in_const hx, out_const hx]

/-! ### The blocks after inlining -/

include Sh

theorem get_callee {x : String} {X : Block} (hX : F.body.get x = some X) :
    G'.get x = some (renameBlock (outMap F call) (calleeBlock F call s b x X)) := by
  obtain ⟨h1, h2, h3⟩ := S.F_ne hX
  rw [Sh.get, if_neg h2, if_neg h1, if_neg h3, hX]

theorem get_other {x : String} {X : Block} (hx : x ≠ b) (hX : H.body.get x = some X) :
    G'.get x = some (renameBlock (outMap F call) (fixOther b blk x X)) := by
  obtain ⟨h1, h2, h3⟩ := S.H_ne hX
  rw [Sh.get, if_neg h2, if_neg h1, if_neg hx, h3, hX]
  rfl

omit S in
theorem get_first : G'.get (firstId b) = some (renameBlock (outMap F call) (firstBlock s b k blk)) := by
  rw [Sh.get, if_neg (firstId_ne_secondId b), if_pos rfl]

omit S in
theorem get_second : G'.get (secondId b) = some (renameBlock (outMap F call) (secondBlock F call b k blk)) := by
  rw [Sh.get, if_pos rfl]

variable {V W : Type} {base : String → V}

/-! ### Edges of the caller -/

theorem goto_host {x t x' : String} {X : Block} (hX : H.body.get x = some X) (ht : t ∈ X.succs) (hx' : x' = if x = b then secondId b else x)
    {env env' : String → V} (he : EnvRel H (outMap F call) base x [] env env') {st st' : List (Frame V × List String)}
    (hst : StackRel O h f H F b k blk call base st st') (w : W) :
    outRel (ConfRel O h f H F b k blk call base) Eq (goto H.body h (some x) t env st w) (goto G' h (some x') (target b t) env' st' w) := by
  obtain ⟨T, hT⟩ := S.saneH.coherent.targets x X hX t ht
  unfold goto
  rw [hT]
  have hreach : Clear H [] t (code T) := .edge he.reach hX ht hT (by simp)
  have hinj : ∀ i ∈ phis T, ∀ v ∈ i.outs, ∀ w, ¬ Clear H [w] t (code T) → outMap F call v = outMap F call w → v = w :=
    fun i hi v hv w hw e => S.out_inj_phi hT hreach hi hv hw e
  have hk : ∀ i ∈ phis T, ∀ v ∈ i.outs, isConst v = false ∧ isConst (outMap F call v) = false := by
    intro i hi v hv
    have h1 := S.ssaH.noConst v (outs_mem_defs hT (phis_mem hi) hv)
    rw [out_not_out (S.not_out_phi hT hi hv)]
    exact ⟨h1, h1⟩
  by_cases htb : t = b
  · subst htb
    have hTb : T = blk := by rw [S.block] at hT; exact (Option.some.inj hT).symm
    subst hTb
    have hxb : x ≠ t := by
      rintro rfl
      rw [hX] at hT
      cases hT
      exact S.self ht
    rw [if_neg hxb] at hx'
    subst hx'
    rw [target, if_pos rfl, get_first Sh]
    simp only
    rcases he.enter (fun v hv => out_const hv) S.ssaH hX ht hT (T' := renameBlock (outMap F call) (firstBlock s t k T)) S.first_phis rfl hinj hk
      with ⟨e1, e2⟩ | ⟨e, e', e1, e2, e3, _⟩
    · rw [e1, e2]; trivial
    · rw [e1, e2]
      refine ConfRel.host ?_ e3 hst
      rw [S.first_code, S.code_blk]
      exact .first suffix_rfl
  · rw [target, if_neg htb, S.get_other Sh htb hT]
    simp only
    have hidx : (renameBlock (outMap F call) (fixOther b blk t T)).entries.idxOf? x' = T.entries.idxOf? x := by
      show (if t ∈ blk.succs then replaceName b (secondId b) T.entries else T.entries).idxOf? x' = _
      have hne : ∀ y ∈ T.entries, y ≠ secondId b := by
        intro y hy
        obtain ⟨Y, hY⟩ := S.saneH.coherent.preds t T hT y (S.saneH.entries t T hT y hy)
        exact (S.H_ne hY).2.1
      have hxs : x ≠ secondId b := (S.H_ne hX).2.1
      by_cases hts : t ∈ blk.succs
      · rw [if_pos hts, hx', replaceName]
        refine idxOf?_map_inj (f := fun x => if x = b then secondId b else x) ?_
        intro y hy hyx
        by_cases h1 : y = b <;> by_cases h2 : x = b
        · rw [h1, h2]
        · simp only [h1, h2, if_true, if_false] at hyx; exact absurd hyx.symm hxs
        · simp only [h1, h2, if_true, if_false] at hyx; exact absurd hyx (hne y hy)
        · simpa only [h1, h2, if_false] using hyx
      · have hxb : x ≠ b := by
          rintro rfl
          rw [S.block] at hX
          cases hX
          exact hts ht
        rw [if_neg hts, hx', if_neg hxb]
    rcases he.enter (fun v hv => out_const hv) S.ssaH hX ht hT (T' := renameBlock (outMap F call) (fixOther b blk t T)) (phis_rename _ _) hidx hinj hk
      with ⟨e1, e2⟩ | ⟨e, e', e1, e2, e3, _⟩
    · rw [e1, e2]; trivial
    · rw [e1, e2]
      refine ConfRel.host ?_ e3 hst
      have : code (renameBlock (outMap F call) (fixOther b blk t T)) = (code T).map (renameInstr (outMap F call)) := code_rename _ _
      rw [this]
      exact .other htb hT suffix_rfl

theorem goto_host_start {s0 : String} (hs0 : H.body.start = some s0) {env : String → V} (hcon : ∀ v, isConst v = true → env v = base v)
    {st st' : List (Frame V × List String)} (hst : StackRel O h f H F b k blk call base st st') (w : W) :
    outRel (ConfRel O h f H F b k blk call base) Eq (goto H.body h none s0 env st w) (goto G' h none (target b s0) env st' w) := by
  obtain ⟨t, T, ht, hT⟩ := S.saneH.start
  rw [hs0] at ht
  cases ht
  have hv : ∀ v ∈ H.args, env (outMap F call v) = env v := by
    intro v hv
    rw [out_not_out fun ho => defs_args S.ssaH.once S.block S.call_mem ho hv]
  unfold goto
  rw [hT]
  by_cases htb : s0 = b
  · subst htb
    have hTb : T = blk := by rw [S.block] at hT; exact (Option.some.inj hT).symm
    subst hTb
    rw [target, if_pos rfl, get_first Sh]
    simp only
    rcases EnvRel.enterStart (base := base) (S' := renameBlock (outMap F call) (firstBlock s s0 k T)) hs0 hT S.first_phis hv
      (fun v hv => ⟨hcon v hv, hcon v hv⟩) (prev' := none) (by intro p hp; cases hp) with ⟨e1, e2⟩ | ⟨e1, e2, e3⟩
    · rw [e1, e2]; trivial
    · rw [e1, e2]
      refine ConfRel.host ?_ e3 hst
      rw [S.first_code, S.code_blk]
      exact .first suffix_rfl
  · rw [target, if_neg htb, S.get_other Sh htb hT]
    simp only
    rcases EnvRel.enterStart (base := base) (S' := renameBlock (outMap F call) (fixOther b blk s0 T)) hs0 hT (phis_rename _ _) hv
      (fun v hv => ⟨hcon v hv, hcon v hv⟩) (prev' := none) (by intro p hp; cases hp) with ⟨e1, e2⟩ | ⟨e1, e2, e3⟩
    · rw [e1, e2]; trivial
    · rw [e1, e2]
      refine ConfRel.host ?_ e3 hst
      have : code (renameBlock (outMap F call) (fixOther b blk s0 T)) = (code T).map (renameInstr (outMap F call)) := code_rename _ _
      rw [this]
      exact .other htb hT suffix_rfl

/-! ### Edges of the function -/

omit Sh in
/-- The variables of the caller are not changed while the function runs. -/
theorem keep_host {envH env' e' : String → V} (hh : EnvRel H (outMap F call) base b (call :: blk.instrs.drop (k + 1)) envH env')
    (hcon : ∀ v, isConst v = true → e' v = base v) (hy : ∀ y, y ∉ F.defs → e' y = env' y) :
    EnvRel H (outMap F call) base b (call :: blk.instrs.drop (k + 1)) envH e' := by
  refine ⟨hh.reach, ?_, fun v hv => ⟨(hh.consts v hv).1, hcon v hv⟩⟩
  intro v hv hcl
  have hd := hh.defs hcl
  have ho : v ∉ call.outs := fun ho => hcl (own_outs_clear S.ssaH S.block S.call_suffix hh.reach ho)
  rw [← hh.vars v hv hcl, out_not_out ho]
  exact hy v fun hF => S.apart (defs_names hF) (defs_names hd) hv

omit Sh in
theorem both_def {x : String} {X : Block} (hX : F.body.get x = some X) {i : Instr} (hi : i ∈ X.instrs) {v : String} (hv : v ∈ i.outs) :
    isConst v = false ∧ isConst (bothMap F call v) = false ∧ bothMap F call v ∈ F.defs := by
  have h1 := S.ssaF.noConst v (outs_mem_defs hX hi hv)
  have h2 : bothMap F call v = v := (S.in_out_def hX hi hv).2
  rw [h2]
  exact ⟨h1, h1, outs_mem_defs hX hi hv⟩

omit Sh in
theorem nonempty_rest {x : String} {X : Block} (hX : F.body.get x = some X) (hx : x ∈ F.body.returns) : code X ≠ [] := by
  obtain ⟨i, pre, _, _, _, _, _, h2, _, _⟩ := S.ret_block hx hX
  rw [h2]; simp

theorem goto_callee {x t : String} {X : Block} (hX : F.body.get x = some X) (ht : t ∈ X.succs)
    {env envH env' : String → V} (he : EnvRel F (bothMap F call) base x [] env env')
    (hh : EnvRel H (outMap F call) base b (call :: blk.instrs.drop (k + 1)) envH env') {st st' : List (Frame V × List String)}
    (hst : StackRel O h f H F b k blk call base st st') (w : W) :
    outRel (ConfRel O h f H F b k blk call base) Eq
      (goto F.body (some f) (some x) t env ((⟨h, b, blk.instrs.drop (k + 1), envH⟩, call.outs) :: st) w)
      (goto G' h (some x) t env' st' w) := by
  obtain ⟨T, hT⟩ := S.saneF.coherent.targets x X hX t ht
  unfold goto
  rw [hT, S.get_callee Sh hT]
  simp only
  rcases he.enter (fun v hv => both_const hv) S.ssaF hX ht hT (T' := renameBlock (outMap F call) (calleeBlock F call s b t T)) (p' := x)
    (S.callee_phis hT) rfl (fun i hi v hv w hw e => S.in_inj hT (phis_mem hi) hv (by
      by_contra hd
      exact hw (clear_of_not_def hd (.edge he.reach hX ht hT (by simp)))) e)
    (fun i hi v hv => ⟨(S.both_def hT (phis_mem hi) hv).1, (S.both_def hT (phis_mem hi) hv).2.1⟩)
    with ⟨e1, e2⟩ | ⟨e, e', e1, e2, e3, e4⟩
  · rw [e1, e2]; trivial
  · rw [e1, e2]
    have hh' := S.keep_host hh (fun v hv => (e3.consts v hv).2) (fun y hy => e4 y fun i hi v hv hvy => hy (by
      rw [← hvy]; exact (S.both_def hT (phis_mem hi) hv).2.2))
    have := ConfRel.callee (w := w) hT suffix_rfl (S.nonempty_rest hT) e3 hh' hst
    rw [← S.callee_code hT] at this
    exact this

theorem goto_callee_start {env envH env' : String → V} (hv : ∀ v ∈ F.args, env' (bothMap F call v) = env v)
    (hcon : ∀ v, isConst v = true → env v = base v ∧ env' v = base v)
    (hh : EnvRel H (outMap F call) base b (call :: blk.instrs.drop (k + 1)) envH env') {st st' : List (Frame V × List String)}
    (hst : StackRel O h f H F b k blk call base st st') (w : W) :
    outRel (ConfRel O h f H F b k blk call base) Eq
      (goto F.body (some f) none s env ((⟨h, b, blk.instrs.drop (k + 1), envH⟩, call.outs) :: st) w)
      (goto G' h (some (firstId b)) s env' st' w) := by
  obtain ⟨t, T, ht, hT⟩ := S.saneF.start
  rw [S.start] at ht
  cases ht
  unfold goto
  rw [hT, S.get_callee Sh hT]
  simp only
  rcases EnvRel.enterStart (base := base) (S' := renameBlock (outMap F call) (calleeBlock F call s b s T)) S.start hT (S.callee_phis hT) hv hcon
    (prev' := some (firstId b)) (by
      intro p hp
      cases hp
      show T.entries.idxOf? (firstId b) = none
      rw [idxOf?_eq_none_iff]
      intro hin
      obtain ⟨Y, hY⟩ := S.saneF.coherent.preds s T hT _ (S.saneF.entries s T hT _ hin)
      exact (S.F_ne hY).1 rfl) with ⟨e1, e2⟩ | ⟨e1, e2, e3⟩
  · rw [e1, e2]; trivial
  · rw [e1, e2]
    have := ConfRel.callee (w := w) hT suffix_rfl (S.nonempty_rest hT) e3 hh hst
    rw [← S.callee_code hT] at this
    exact this

/-! ### The return -/

theorem goto_second {x : String} {X : Block} (hX : F.body.get x = some X) (hx : x ∈ F.body.returns) {env envH env' : String → V} {i : Instr}
    (hs : [i] <:+ code X) (he : EnvRel F (bothMap F call) base x [i] env env')
    (hh : EnvRel H (outMap F call) base b (call :: blk.instrs.drop (k + 1)) envH env') {st st' : List (Frame V × List String)}
    (hst : StackRel O h f H F b k blk call base st st') (w : W) :
    i.op = "functionReturn" ∧ i.ins.length = call.outs.length ∧ outRel (ConfRel O h f H F b k blk call base) Eq
      (.goto ⟨⟨h, b, blk.instrs.drop (k + 1), assign envH (call.outs.zip (i.ins.map env))⟩, st, w⟩)
      (goto G' h (some x) (secondId b) env' st' w) := by
  obtain ⟨i0, pre, h1, h2, h3, h4, h5, h6, h7, h8⟩ := S.ret_block hx hX
  have hi : i = i0 := by
    obtain ⟨t, ht⟩ := hs
    rw [h6] at ht
    exact (append_inj' ht rfl).2 |> fun e => by simpa using e
  subst hi
  refine ⟨h2, h3, ?_⟩
  -- the values returned
  have hvals : i.ins.map env = (retOf F call x).map env' := by
    have e1 := he.ins (fun v hv => both_const hv) S.ssaF hX hs
    rw [← e1, h4]
    simp only [renameInstr, map_map]
    apply map_congr_left
    intro y hy
    simp only [Function.comp]
    have : y ∈ F.args ++ F.body.names := instr_names hX (i := i) (by rw [h1]; simp) (mem_append.2 (Or.inl hy))
    rw [bothMap, S.out_in this]
  rw [hvals]
  have hlen : call.outs.length = ((retOf F call x).map env').length := by rw [length_map, h4, length_map, h3]
  have hnd : ((call.outs.zip ((retOf F call x).map env')).map Prod.fst).Nodup := zip_fst_nodup S.outs_nodup
  have hreach : Clear H [] b (blk.instrs.drop (k + 1)) := .instr hh.reach (by simp)
  have hold : ∀ v, isConst v = false → ¬ Clear H [v] b (blk.instrs.drop (k + 1)) → v ∉ call.outs → env' (outMap F call v) = envH v := by
    intro v hv hcl hvo
    refine hh.vars v hv fun hc => hcl (.instr hc ?_)
    intro u hu; rw [mem_singleton] at hu; subst hu; exact hvo
  have hconst : ∀ v, isConst v = true → assign envH (call.outs.zip ((retOf F call x).map env')) v = base v := by
    intro v hv
    rw [assign_not_mem]
    · exact (hh.consts v hv).1
    · intro hin
      have := S.call_outs_var (zip_fst_sub hin)
      rw [hv] at this; cases this
  -- what the second half starts with
  have main : ∃ e', enter (renameBlock (outMap F call) (secondBlock F call b k blk)) (some x) env' = some e' ∧
      EnvRel H (outMap F call) base b (blk.instrs.drop (k + 1)) (assign envH (call.outs.zip ((retOf F call x).map env'))) e' := by
    unfold enter enterWith
    have hph : (renameBlock (outMap F call) (secondBlock F call b k blk)).instrs.filter isPhi = (phisOf F call).map (renameInstr (outMap F call)) :=
      S.second_phis
    rw [hph]
    by_cases hone : ∃ e, F.body.returns = [e]
    · -- one exit
      obtain ⟨e, he1⟩ := hone
      have hxe : x = e := by rw [he1, mem_singleton] at hx; exact hx
      subst hxe
      have hp : phisOf F call = [] := by unfold phisOf retsOf; rw [he1]; rfl
      refine ⟨env', by simp [hp], hreach, ?_, fun v hv => ⟨hconst v hv, (hh.consts v hv).2⟩⟩
      intro v hv hcl
      by_cases hvo : v ∈ call.outs
      · rcases S.out_cases hvo with ⟨_, hno⟩ | ⟨e, he2, hz⟩
        · exact absurd he1 (hno x)
        · rw [he1] at he2
          cases he2
          symm
          apply assign_mem hnd
          rw [zip_map_right]
          exact mem_map.2 ⟨_, hz, rfl⟩
      · rw [assign_not_mem fun hin => hvo (zip_fst_sub hin)]
        exact hold v hv hcl hvo
    · -- several exits
      have hlen2 : ∃ r1 r2 rs, F.body.returns = r1 :: r2 :: rs := by
        match hr : F.body.returns with
        | [] => rw [hr] at hx; cases hx
        | [e] => exact absurd ⟨e, hr⟩ hone
        | r1 :: r2 :: rs => exact ⟨r1, r2, rs, rfl⟩
      obtain ⟨r1, r2, rs, hr⟩ := hlen2
      have hρ : outMap F call = id := by unfold outMap retsOf; rw [hr]; rfl
      have hpo : phisOf F call = ((call.outs.zipIdx).map fun p => (⟨"PhiFunction", (retsOf F call).map fun r => r.getD p.2 "", [p.1]⟩ : Instr)).reverse := by
        unfold phisOf retsOf; rw [hr]; rfl
      have hen : (renameBlock (outMap F call) (secondBlock F call b k blk)).entries = F.body.returns := by
        show entriesOf F call = _
        unfold entriesOf retsOf; rw [hr]; rfl
      rw [hen, hρ]
      have hid : (phisOf F call).map (renameInstr id) = phisOf F call := by
        have : (renameInstr id) = id := funext fun i => by simp [renameInstr]
        rw [this, map_id]
      rw [hid]
      obtain ⟨n, hn⟩ : ∃ n, F.body.returns.idxOf? x = some n := by
        cases hidx : F.body.returns.idxOf? x with
        | some n => exact ⟨n, rfl⟩
        | none => rw [idxOf?_eq_none_iff] at hidx; exact absurd hx hidx
      have hpairs : phiPairs env' n (phisOf F call) = (call.outs.zip ((retOf F call x).map env')).reverse := by
        have hcol : ∀ p ∈ call.outs.zipIdx, ((retsOf F call).map fun r => r.getD p.2 "")[n]? = some ((retOf F call x).getD p.2 "") := by
          intro p _
          rw [getElem?_map, retsOf, getElem?_map, idxOf?_getElem? hn]
          rfl
        rw [hpo]
        unfold phiPairs
        rw [filterMap_reverse, filterMap_map]
        congr 1
        refine (filterMap_congr (g := fun p : String × Nat => some (p.1, env' ((retOf F call x).getD p.2 ""))) ?_).trans ?_
        · intro p hp
          simp only [Function.comp, hcol p hp]
        have hl2 : call.outs.length = (retOf F call x).length := by rw [hlen, length_map]
        apply ext_getElem?
        intro m
        rw [show (fun p : String × Nat => some (p.1, env' ((retOf F call x).getD p.2 ""))) = some ∘ fun p => (p.1, env' ((retOf F call x).getD p.2 "")) from rfl,
          filterMap_eq_map, getElem?_map, getElem?_zipIdx]
        by_cases hm : m < call.outs.length
        · have hm2 : m < (retOf F call x).length := hl2 ▸ hm
          rw [getElem?_eq_getElem hm, getElem?_eq_getElem (by rw [length_zip, length_map]; omega)]
          simp [getD_eq_getElem?_getD, getElem?_eq_getElem hm2]
        · rw [getElem?_eq_none (by omega), getElem?_eq_none (by rw [length_zip]; omega)]
          rfl
      have henv : ∃ e', (if phisOf F call = [] then some env' else (some x).bind fun p => (F.body.returns.idxOf? p).map fun k => execPhis env' k (phisOf F call))
          = some e' ∧ e' = assign env' (call.outs.zip ((retOf F call x).map env')).reverse := by
        refine ⟨_, ?_, rfl⟩
        by_cases h0 : phisOf F call = []
        · rw [if_pos h0, ← hpairs, h0]; rfl
        · rw [if_neg h0, Option.bind_some, hn, Option.map_some, execPhis_eq, hpairs]
      obtain ⟨e', e1, rfl⟩ := henv
      have hndr : ((call.outs.zip ((retOf F call x).map env')).reverse.map Prod.fst).Nodup := by
        rw [map_reverse, nodup_reverse]; exact hnd
      refine ⟨_, e1, hreach, ?_, fun v hv => ⟨hconst v hv, ?_⟩⟩
      · intro v hv hcl
        show assign env' _ v = _
        by_cases hvo : v ∈ call.outs
        · have : v ∈ (call.outs.zip ((retOf F call x).map env')).map Prod.fst := by rw [zip_fst_eq hlen]; exact hvo
          obtain ⟨q, hq, rfl⟩ := mem_map.1 this
          rw [assign_mem (v := q.2) hndr (mem_reverse.2 hq), assign_mem (v := q.2) hnd hq]
        · rw [assign_not_mem fun hin => hvo (zip_fst_sub hin), assign_not_mem]
          · have := hold v hv hcl hvo
            rw [hρ] at this
            exact this
          · rw [map_reverse, mem_reverse]
            exact fun hin => hvo (zip_fst_sub hin)
      · rw [assign_not_mem]
        · exact (hh.consts v hv).2
        · rw [map_reverse, mem_reverse]
          intro hin
          have := S.call_outs_var (zip_fst_sub hin)
          rw [hv] at this; cases this
  obtain ⟨e', e1, e2⟩ := main
  unfold goto
  rw [get_second Sh]
  simp only
  rw [e1]
  refine ConfRel.host ?_ e2 hst
  rw [S.second_code]
  exact .second suffix_rfl

end Site
end

end Grey.Inline
