/-
Well-formed objects stay well-formed when the only call of a function is inlined.
-/
import Verif.Inline.SsaAfter
import Mathlib.Order.Nat
import Mathlib.Data.Nat.Find
namespace Grey.Inline
open List Grey.Cfg

/-! ### Exits -/

theorem sameTypes_connect (s1 : String) : ∀ (es : List String) {G : BlockList} {q : BlockList × List (List String)},
    connectExits s1 es G = some q → SameTypes G q.1
  | [], G, q, h => by simp only [connectExits, Option.some.injEq] at h; subst h; exact .refl _
  | e :: es, G, q, h => by
    unfold connectExits setJumpTo at h
    cases hg : G.get e with
    | none => rw [hg] at h; simp at h
    | some E =>
      rw [hg] at h
      simp only [Option.map_some, Option.bind_some] at h
      obtain ⟨r, _, h⟩ := Option.bind_eq_some_iff.1 h
      obtain ⟨q', hq, rfl⟩ := Option.map_eq_some_iff.1 h
      have h1 := sameTypes_connect s1 es hq
      exact SameTypes.trans (SameTypes.trans (sameTypes_modify (f := fun x => { x with jumpTo := some s1 }) (fun _ => rfl) (fun _ => rfl))
        (sameTypes_modify (f := fun x => { x with comesFrom := if e ∈ x.comesFrom then x.comesFrom else x.comesFrom ++ [e] }) (fun _ => rfl)
          (fun _ => rfl))) h1

theorem sameTypes_drop : ∀ (es : List String) {G G' : BlockList}, dropReturns es G = some G' → SameTypes G G'
  | [], G, G', h => by simp only [dropReturns, Option.some.injEq] at h; subst h; exact .refl _
  | e :: es, G, G', h => by
    unfold dropReturns at h
    obtain ⟨r, _, h⟩ := Option.bind_eq_some_iff.1 h
    exact (sameTypes_modify (f := fun x => { x with instrs := x.instrs.dropLast }) (fun _ => rfl) (fun _ => rfl)).trans
      (sameTypes_drop es h)

theorem sameTypes_rename (r : String → String) (G : BlockList) : SameTypes G (renameBlockList r G) := by
  refine ⟨⟨rfl, rfl⟩, fun x => ?_⟩
  rw [get_rename, Option.map_map]
  rfl

theorem sameTypes_bind {call : Instr} {s1 : String} {es : List String} {rets : List (List String)} {G G' : BlockList}
    (h : bindResults call s1 es rets G = some G') : SameTypes G G' := by
  unfold bindResults at h
  split at h
  · simp only [Option.some.injEq] at h; subst h; exact .refl _
  · split at h
    · simp only at h
      split at h
      · simp only [Option.some.injEq] at h; subst h; exact sameTypes_rename _ _
      · cases h
    · cases h
  · obtain ⟨ps, _, rfl⟩ := Option.map_eq_some_iff.1 h
    exact sameTypes_modify (fun _ => rfl) (fun _ => rfl)

theorem exits_addAll : ∀ (bs : List Block) {G G1 : BlockList}, addAll bs G = some G1 → (bs.map (·.id)).Nodup →
    (∀ z ∈ bs, G.get z.id = none) → ExactExits G → ExactExits G1 ∧ ∀ x, x ∉ bs.map (·.id) → G1.get x = G.get x
  | [], G, G1, h, _, _, hG => by simp only [addAll, Option.some.injEq] at h; subst h; exact ⟨hG, fun _ _ => rfl⟩
  | a :: bs, G, G1, h, hnd, hn, hG => by
    unfold addAll at h
    obtain ⟨G0, h0, h1⟩ := Option.bind_eq_some_iff.1 h
    rw [map_cons, nodup_cons] at hnd
    have hg0 := get_add h0
    obtain ⟨g1, g2⟩ := exits_addAll bs h1 hnd.2 (by
      intro z hz
      rw [hg0, if_neg]
      · exact hn z (mem_cons_of_mem _ hz)
      · intro e; exact hnd.1 (e ▸ mem_map_of_mem hz)) (exits_add h0 (hn a mem_cons_self) hG)
    refine ⟨g1, ?_⟩
    intro x hx
    rw [map_cons, mem_cons, not_or] at hx
    rw [g2 x hx.2, hg0, if_neg hx.1]

section
variable {O : Obj} {h : Option String} {f : String} {H F : Component} {s b : String} {k : Nat} {blk : Block} {call : Instr}
  {G' : BlockList} (S : Site O h f H F s b k blk call)

namespace Site
include S

theorem exits_after (hH : ExactExits H.body) (hG : inlineCall k b f F H.body = some G') : ExactExits G' := by
  unfold inlineCall at hG
  obtain ⟨blk', _, hG⟩ := Option.bind_eq_some_iff.1 hG
  obtain ⟨call', _, hG⟩ := Option.bind_eq_some_iff.1 hG
  obtain ⟨s', _, hG⟩ := Option.bind_eq_some_iff.1 hG
  split at hG
  · obtain ⟨G1, h1, hG⟩ := Option.bind_eq_some_iff.1 hG
    obtain ⟨G2, h2, hG⟩ := Option.bind_eq_some_iff.1 hG
    obtain ⟨G3, h3, hG⟩ := Option.bind_eq_some_iff.1 hG
    obtain ⟨G4, h4, hG⟩ := Option.bind_eq_some_iff.1 hG
    obtain ⟨q, h5, hG⟩ := Option.bind_eq_some_iff.1 hG
    obtain ⟨G5, h6, h7⟩ := Option.bind_eq_some_iff.1 hG
    have hids : ∀ r, ((renameBlockList r F.body).blocks.map unreturn).map (·.id) = F.body.blocks.map (·.id) := by
      intro r
      simp only [renameBlockList, map_map]
      apply map_congr_left
      intro y _
      rfl
    obtain ⟨e1, g1⟩ := exits_addAll _ h1 (by rw [hids]; exact S.saneF.coherent.ids) (by
      intro z hz
      have hz' : z.id ∈ F.body.blocks.map (·.id) := by rw [← hids]; exact mem_map_of_mem hz
      obtain ⟨Z, hZ⟩ := get_isSome_iff.2 hz'
      exact S.disj _ _ hZ) hH
    have n1 : G1.get (firstId b) = none := by
      rw [g1, S.freshF.1]
      rw [hids, ← get_none_iff]; exact S.freshF.2
    have n2 : G1.get (secondId b) = none := by
      rw [g1, S.freshS.1]
      rw [hids, ← get_none_iff]; exact S.freshS.2
    have e2 := split_exits n1 n2 h2 e1
    have t3 := (sameTypes_modify (G := G2) (b := firstId b) (f := fun x => { x with instrs := x.instrs.dropLast }) (fun _ => rfl)
      (fun _ => rfl)).trans (sameTypes_successors h3)
    have t4 : SameTypes G3 G4 := by
      unfold addComesFrom at h4
      obtain ⟨_, _, rfl⟩ := Option.map_eq_some_iff.1 h4
      exact sameTypes_modify (fun _ => rfl) (fun _ => rfl)
    have t5 := (sameTypes_modify (G := G4) (b := secondId b) (f := fun x => { x with comesFrom := [] }) (fun _ => rfl) (fun _ => rfl)).trans
      (sameTypes_connect _ _ h5)
    exact ((((t3.trans t4).trans t5).trans (sameTypes_bind h6)).trans (sameTypes_drop _ h7)).exits e2
  · cases hG

end Site
end

/-! ### Components -/

/-- Whether the phi functions of a list come first. -/
theorem phisFirst_iff {l : List Instr} : l = l.filter isPhi ++ l.filter (fun i => !isPhi i) ↔ l.Pairwise fun i j => isPhi j = true → isPhi i = true := by
  induction l with
  | nil => simp
  | cons a l ih =>
    rw [pairwise_cons]
    cases ha : isPhi a with
    | true =>
      rw [filter_cons_of_pos ha, filter_cons_of_neg (by simp [ha]), cons_append, cons.injEq, ih]
      simp
    | false =>
      rw [filter_cons_of_neg (by simp [ha]), filter_cons_of_pos (by simp [ha])]
      constructor
      · intro e
        have hnone : l.filter isPhi = [] := by
          cases hf : l.filter isPhi with
          | nil => rfl
          | cons c cs =>
            rw [hf, cons_append, cons.injEq] at e
            have : c ∈ l.filter isPhi := by rw [hf]; simp
            rw [← e.1] at this
            have := (mem_filter.1 this).2
            rw [ha] at this; cases this
        refine ⟨?_, ?_⟩
        · intro j hj hjp
          have : j ∈ l.filter isPhi := mem_filter.2 ⟨hj, hjp⟩
          rw [hnone] at this; cases this
        · rw [← ih, hnone, nil_append]
          rw [hnone, nil_append, cons.injEq] at e
          exact e.2
      · rintro ⟨h1, h2⟩
        have hnone : l.filter isPhi = [] := by
          rw [filter_eq_nil_iff]
          intro j hj hjp
          have := h1 j hj hjp
          cases this
        have := ih.2 h2
        rw [hnone, nil_append] at this ⊢
        rw [← this]

theorem phisFirst_sublist {l l' : List Instr} (hs : l' <+ l) (h : l = l.filter isPhi ++ l.filter (fun i => !isPhi i)) :
    l' = l'.filter isPhi ++ l'.filter (fun i => !isPhi i) := phisFirst_iff.2 ((phisFirst_iff.1 h).sublist hs)

theorem phisFirst_map {l : List Instr} (r : String → String) (h : l = l.filter isPhi ++ l.filter (fun i => !isPhi i)) :
    l.map (renameInstr r) = (l.map (renameInstr r)).filter isPhi ++ (l.map (renameInstr r)).filter (fun i => !isPhi i) := by
  rw [phisFirst_iff, pairwise_map]
  exact phisFirst_iff.1 h

theorem bounded (l : List String) (r : String → Nat) : ∃ N, ∀ x ∈ l, r x < N := by
  induction l with
  | nil => exact ⟨0, by simp⟩
  | cons a l ih =>
    obtain ⟨N, hN⟩ := ih
    refine ⟨max N (r a + 1), ?_⟩
    intro x hx
    rcases mem_cons.1 hx with rfl | hx
    · omega
    · have := hN x hx; omega

section
variable {O : Obj} {h : Option String} {f : String} {H F : Component} {s b : String} {k : Nat} {blk : Block} {call : Instr}
  {G' : BlockList} (S : Site O h f H F s b k blk call) (Sh : Shape F call s b k blk H.body G')

namespace Site
include S

/-- The names after inlining. -/
theorem out_names {w : String} (hw : w ∈ H.args ++ H.body.names) : isConst (outMap F call w) = true ∨ outMap F call w ∈ H.args ++ H.body.names ∨
    outMap F call w ∈ F.args ++ F.body.names := by
  by_cases ho : w ∈ call.outs
  · rcases S.out_value ho with e | e | e | e
    · rw [e]; exact Or.inr (Or.inl hw)
    · exact Or.inl e
    · exact Or.inr (Or.inl (S.call_ins_names e))
    · exact Or.inr (Or.inr e)
  · rw [out_not_out ho]; exact Or.inr (Or.inl hw)

theorem both_names {v : String} (hv : v ∈ F.args ++ F.body.names) : bothMap F call v ∈ H.args ++ H.body.names ∨
    bothMap F call v ∈ F.args ++ F.body.names := by
  rw [bothMap, S.out_in hv]
  by_cases ha : v ∈ F.args
  · exact Or.inl (S.call_ins_names (S.in_arg_mem ha))
  · rw [in_not_arg ha]; exact Or.inr hv

include Sh

/-- Where the instructions after inlining come from. -/
theorem instr_source {x' : String} {X' : Block} (hX' : G'.get x' = some X') {i' : Instr} (hi : i' ∈ X'.instrs) :
    (∃ x X i, H.body.get x = some X ∧ i ∈ X.instrs ∧ i.op ≠ f ∧ i' = renameInstr (outMap F call) i) ∨
    (∃ X i, F.body.get x' = some X ∧ i ∈ X.instrs ∧ i' = renameInstr (bothMap F call) i ∧ i.op ≠ "functionReturn") ∨
    (x' = secondId b ∧ i' ∈ phisOf F call) := by
  rcases kinds Sh hX' with ⟨rfl, rfl⟩ | ⟨rfl, rfl⟩ | ⟨X, hX, rfl⟩ | ⟨X, hxb, hX, rfl⟩
  · have hi' : i' ∈ (phisOf F call ++ blk.instrs.drop (k + 1)).map (renameInstr (outMap F call)) := hi
    obtain ⟨i, hi0, rfl⟩ := mem_map.1 hi'
    rcases mem_append.1 hi0 with hi1 | hi1
    · refine Or.inr (Or.inr ⟨rfl, ?_⟩)
      obtain ⟨_, _, _, _, _, hid⟩ := S.phisOf_mem hi1
      have e : renameInstr (outMap F call) i = i := by rw [hid]; simp [renameInstr]
      rw [e]; exact hi1
    · exact Or.inl ⟨b, blk, i, S.block, (S.post_mem hi1).1, (S.post_mem hi1).2, rfl⟩
  · have hi' : i' ∈ (blk.instrs.take k).map (renameInstr (outMap F call)) := hi
    obtain ⟨i, hi0, rfl⟩ := mem_map.1 hi'
    exact Or.inl ⟨b, blk, i, S.block, (S.pre_mem hi0).1, (S.pre_mem hi0).2, rfl⟩
  · rw [S.callee_instrs] at hi
    obtain ⟨i, hi0, rfl⟩ := mem_map.1 hi
    refine Or.inr (Or.inl ⟨X, i, hX, ?_, rfl, ?_⟩)
    · split at hi0
      · exact (dropLast_sublist _).subset hi0
      · exact hi0
    · intro ho
      split at hi0
      · next hx =>
        obtain ⟨j, pre, h1, _, _, _, _, _, _, h8⟩ := S.ret_block hx hX
        rw [h1, dropLast_concat] at hi0
        exact h8 i hi0 ho
      · next hx =>
        obtain ⟨j, hj⟩ := getElem?_of_mem hi0
        exact hx ((S.exits.returns x').2 ⟨X, hX, (S.onlyReturns x' X hX j i hj ho).1⟩)
  · have hi' : i' ∈ X.instrs.map (renameInstr (outMap F call)) := hi
    obtain ⟨i, hi0, rfl⟩ := mem_map.1 hi'
    exact Or.inl ⟨x', X, i, hX, hi0, S.other_op hxb hX hi0, rfl⟩

/-- The variables after inlining. -/
theorem names_after {v : String} (hv : v ∈ H.args ++ G'.names) (hc : isConst v = false) :
    v ∈ H.args ++ H.body.names ∨ v ∈ F.args ++ F.body.names := by
  rcases mem_append.1 hv with hv | hv
  · exact Or.inl (mem_append.2 (Or.inl hv))
  · obtain ⟨X', hX', hv⟩ := mem_flatMap.1 hv
    obtain ⟨Y, hY⟩ := get_isSome_iff.2 (mem_map_of_mem (f := (·.id)) hX')
    have e := inj_on_of_nodup_map Sh.ids (get_mem hY) hX' (get_id hY)
    subst e
    have fromH : ∀ {w}, w ∈ H.args ++ H.body.names → v = outMap F call w → v ∈ H.args ++ H.body.names ∨ v ∈ F.args ++ F.body.names := by
      rintro w hw rfl
      rcases S.out_names hw with h1 | h1
      · rw [hc] at h1; cases h1
      · exact h1
    have fromF : ∀ {w}, w ∈ F.args ++ F.body.names → v = bothMap F call w → v ∈ H.args ++ H.body.names ∨ v ∈ F.args ++ F.body.names := by
      rintro w hw rfl
      exact S.both_names hw
    rcases mem_append.1 hv with hv | hv
    · obtain ⟨i', hi, hv⟩ := mem_flatMap.1 hv
      rcases S.instr_source Sh hY hi with ⟨x, X, i, hX, hi0, _, rfl⟩ | ⟨X, i, hX, hi0, rfl, _⟩ | ⟨_, hp⟩
      · rcases mem_append.1 hv with hv | hv
        · obtain ⟨w, hw, e⟩ := mem_map.1 hv
          exact fromH (instr_names hX hi0 (mem_append.2 (Or.inl hw))) e.symm
        · obtain ⟨w, hw, e⟩ := mem_map.1 hv
          exact fromH (instr_names hX hi0 (mem_append.2 (Or.inr hw))) e.symm
      · rcases mem_append.1 hv with hv | hv
        · obtain ⟨w, hw, e⟩ := mem_map.1 hv
          exact fromF (instr_names hX hi0 (mem_append.2 (Or.inl hw))) e.symm
        · obtain ⟨w, hw, e⟩ := mem_map.1 hv
          exact fromF (instr_names hX hi0 (mem_append.2 (Or.inr hw))) e.symm
      · obtain ⟨o, n, hon, rfl, _, hid⟩ := S.phisOf_mem hp
        rcases mem_append.1 hv with hv | hv
        · obtain ⟨r, hr, e⟩ := mem_map.1 hv
          obtain ⟨x, hx, rfl⟩ := mem_map.1 hr
          obtain ⟨E, i, pre, hE, hpre, _, hl, hro, _⟩ := S.ret_at hx
          have hn : n < i.ins.length := by
            have := (mem_zipIdx hon).2.1
            omega
          rw [hro, getD_eq_getElem?_getD, getElem?_map, getElem?_eq_getElem hn] at e
          simp only [Option.map_some, Option.getD_some] at e
          have hz : i.ins[n] ∈ F.args ++ F.body.names := instr_names hE (i := i) (by rw [hpre]; simp) (mem_append.2 (Or.inl (getElem_mem hn)))
          exact fromF hz (by rw [bothMap, S.out_in hz, e])
        · rw [mem_singleton] at hv
          have := (mem_zipIdx hon).2.2
          refine Or.inl (instr_names S.block S.call_mem (mem_append.2 (Or.inr ?_)))
          rw [hv, this]
          exact getElem_mem _
    · rw [Option.mem_toList] at hv
      have hv' : Y.cond = some v := hv
      generalize Y.id = y at hY
      rcases kinds Sh hY with ⟨_, rfl⟩ | ⟨_, rfl⟩ | ⟨X, hX, rfl⟩ | ⟨X, hxb, hX, rfl⟩
      · obtain ⟨w, hw, e⟩ := Option.map_eq_some_iff.1 (show blk.cond.map (outMap F call) = some v from hv')
        exact fromH (cond_names S.block hw) e.symm
      · have h0 : (none : Option String) = some v := hv'
        cases h0
      · obtain ⟨w', hw', e⟩ := Option.map_eq_some_iff.1 (show (X.cond.map (inMap F call)).map (outMap F call) = some v from hv')
        obtain ⟨w, hw, rfl⟩ := Option.map_eq_some_iff.1 hw'
        exact fromF (cond_names hX hw) e.symm
      · obtain ⟨w, hw, e⟩ := Option.map_eq_some_iff.1 (show X.cond.map (outMap F call) = some v from hv')
        exact fromH (cond_names hX hw) e.symm

theorem ordered_after (hoH : Ordered H) (hoF : Ordered F) : Ordered ⟨H.args, G'⟩ := by
  obtain ⟨rH, hrH⟩ := hoH
  obtain ⟨rF, hrF⟩ := hoF
  obtain ⟨N, hN⟩ := bounded (F.args ++ F.body.names) rF
  obtain ⟨hi, hhi⟩ : ∃ hi, (∀ u ∈ call.ins, isConst u = false → rH u < hi) ∧ ∀ v ∈ call.outs, hi ≤ rH v := by
    by_cases h0 : call.outs = []
    · obtain ⟨M, hM⟩ := bounded call.ins rH
      exact ⟨M, fun u hu _ => hM u hu, by rw [h0]; simp⟩
    · obtain ⟨M, hM⟩ := bounded (call.ins.filter fun u => !isConst u) rH
      -- the least bound
      have hex : ∃ M, ∀ u ∈ call.ins.filter (fun u => !isConst u), rH u < M := ⟨M, hM⟩
      refine ⟨Nat.find hex, ?_, ?_⟩
      · intro u hu hc
        exact Nat.find_spec hex u (mem_filter.2 ⟨hu, by simp [hc]⟩)
      · intro v hv
        refine Nat.find_min' hex ?_
        intro u hu
        obtain ⟨h1, h2⟩ := mem_filter.1 hu
        refine hrH b blk call S.block (suffix_head_mem S.call_suffix) u h1 (by simpa using h2) v hv
  obtain ⟨hlo, hup⟩ := hhi
  let rank : String → Nat := fun x => if x ∈ F.args ++ F.body.names ∧ isConst x = false then hi + rF x else if rH x < hi then rH x else rH x + N
  have rank_F : ∀ {x}, x ∈ F.args ++ F.body.names → isConst x = false → rank x = hi + rF x := by
    intro x h1 h2; simp only [rank, h1, h2, and_self, if_true]
  have rank_H : ∀ {x}, x ∈ H.args ++ H.body.names → isConst x = false → rank x = if rH x < hi then rH x else rH x + N := by
    intro x h1 h2
    have : ¬ (x ∈ F.args ++ F.body.names ∧ isConst x = false) := fun hh => S.apart hh.1 h1 h2
    simp only [rank, if_neg this]
  refine ⟨rank, ?_⟩
  intro x' X' i' hX' hi' u hu huc v hv
  have him := code_mem hi'
  have hnp : isPhi i' = false := by simpa using (mem_filter.1 hi').2
  rcases S.instr_source Sh hX' him with ⟨x, X, i, hX, hi0, hne, rfl⟩ | ⟨X, i, hX, hi0, rfl, _⟩ | ⟨_, hp⟩
  · obtain ⟨u0, hu0, rfl⟩ := mem_map.1 hu
    obtain ⟨v0, hv0, rfl⟩ := mem_map.1 hv
    rw [out_not_out (S.keep_out hX hi0 hne hv0)]
    have hcode : i ∈ code X := mem_filter.2 ⟨hi0, by simpa [isPhi_rename] using hnp⟩
    have hu0c := var_of_out huc
    have hlt := hrH x X i hX hcode u0 hu0 hu0c v0 hv0
    have hu0n : u0 ∈ H.args ++ H.body.names := instr_names hX hi0 (mem_append.2 (Or.inl hu0))
    have hv0n : v0 ∈ H.args ++ H.body.names := instr_names hX hi0 (mem_append.2 (Or.inr hv0))
    rw [rank_H hv0n (S.ssaH.noConst v0 (outs_mem_defs hX hi0 hv0))]
    by_cases ho : u0 ∈ call.outs
    · have h1 := hup u0 ho
      rw [if_neg (by omega)]
      rcases S.out_value ho with e | e | e | e
      · rw [e, rank_H hu0n hu0c, if_neg (by omega)]; omega
      · rw [huc] at e; cases e
      · rw [rank_H (S.call_ins_names e) huc, if_pos (hlo _ e huc)]
        have := hlo _ e huc
        omega
      · rw [rank_F e huc]
        have := hN _ e
        omega
    · rw [out_not_out ho, rank_H hu0n hu0c]
      by_cases h1 : rH u0 < hi <;> by_cases h2 : rH v0 < hi <;> simp only [h1, h2, if_true, if_false] <;> omega
  · obtain ⟨u0, hu0, rfl⟩ := mem_map.1 hu
    obtain ⟨v0, hv0, rfl⟩ := mem_map.1 hv
    have hcode : i ∈ code X := mem_filter.2 ⟨hi0, by simpa [isPhi_rename] using hnp⟩
    have hu0c := var_of_both huc
    have hlt := hrF x' X i hX hcode u0 hu0 hu0c v0 hv0
    have hu0n : u0 ∈ F.args ++ F.body.names := instr_names hX hi0 (mem_append.2 (Or.inl hu0))
    have hv0n : v0 ∈ F.args ++ F.body.names := instr_names hX hi0 (mem_append.2 (Or.inr hv0))
    have ev : bothMap F call v0 = v0 := (S.in_out_def hX hi0 hv0).2
    rw [ev, rank_F hv0n (S.ssaF.noConst v0 (outs_mem_defs hX hi0 hv0))]
    have eu : bothMap F call u0 = inMap F call u0 := S.out_in hu0n
    rw [eu] at huc ⊢
    by_cases ha : u0 ∈ F.args
    · have h1 := S.in_arg_mem ha
      rw [rank_H (S.call_ins_names h1) huc, if_pos (hlo _ h1 huc)]
      have := hlo _ h1 huc
      omega
    · rw [in_not_arg ha, rank_F hu0n hu0c]
      omega
  · rw [S.phisOf_phi hp] at hnp; cases hnp

theorem comp_after (okH : CompOk H) (okF : CompOk F) (hex : ExactExits G') : CompOk ⟨H.args, G'⟩ where
  sane := S.sane_after Sh
  ssa := S.ssa_after Sh okF
  ordered := S.ordered_after Sh okH.ordered okF.ordered
  exits := hex
  phisFirst := by
    intro x' X' hX'
    rcases kinds Sh hX' with ⟨rfl, rfl⟩ | ⟨rfl, rfl⟩ | ⟨X, hX, rfl⟩ | ⟨X, hxb, hX, rfl⟩
    · show (phisOf F call ++ blk.instrs.drop (k + 1)).map (renameInstr (outMap F call)) = _
      refine phisFirst_map _ ?_
      rw [phisFirst_iff, pairwise_append]
      refine ⟨?_, ?_, ?_⟩
      · exact pairwise_of_forall_mem_list fun i hi j _ _ => S.phisOf_phi hi
      · exact pairwise_of_forall_mem_list fun i _ j hj hp => by rw [S.phisFirst j hj] at hp; cases hp
      · intro i hi j _ _; exact S.phisOf_phi hi
    · exact phisFirst_map _ (phisFirst_sublist (take_sublist k _) (okH.phisFirst b blk S.block))
    · rw [phis, code, S.callee_instrs]
      refine phisFirst_map _ ?_
      split
      · exact phisFirst_sublist (dropLast_sublist _) (okF.phisFirst x' X hX)
      · exact okF.phisFirst x' X hX
    · exact phisFirst_map _ (okH.phisFirst x' X hX)
  noSelf := by
    intro x' X' hX' hin
    rcases kinds Sh hX' with ⟨rfl, rfl⟩ | ⟨rfl, rfl⟩ | ⟨X, hX, rfl⟩ | ⟨X, hxb, hX, rfl⟩
    · rw [succs_second] at hin; exact (S.succ_H S.block hin).2.1 rfl
    · rw [succs_first, mem_singleton] at hin
      exact (S.F_ne S.start_get.choose_spec).1 hin.symm
    · rw [S.succs_callee hX] at hin
      split at hin
      · rw [mem_singleton] at hin; exact (S.F_ne hX).2.1 hin
      · exact okF.noSelf x' X hX hin
    · rw [succs_other] at hin
      obtain ⟨t, ht, e⟩ := mem_map.1 hin
      rw [S.target_ne (S.H_ne hX).1] at e
      exact okH.noSelf x' X hX (e.1 ▸ ht)
  returns := by
    intro x' X' hX' hj
    rcases kinds Sh hX' with ⟨rfl, rfl⟩ | ⟨rfl, rfl⟩ | ⟨X, hX, rfl⟩ | ⟨X, hxb, hX, rfl⟩
    · obtain ⟨h1, h2, i, h3, h4⟩ := okH.returns b blk S.block hj
      refine ⟨h1, ?_, renameInstr (outMap F call) i, ?_, h4⟩
      · show blk.cond.map _ = none
        rw [h2]; rfl
      · show ((phisOf F call ++ blk.instrs.drop (k + 1)).map (renameInstr (outMap F call))).getLast? = _
        rw [S.split, getLast?_append] at h3
        have hne : blk.instrs.drop (k + 1) ≠ [] := by
          intro h0
          rw [h0] at h3
          simp only [getLast?_singleton, Option.some_or, Option.some.injEq] at h3
          rw [← h3, S.op] at h4
          have := S.noReturn
          rw [← h4, S.fn] at this
          cases this
        rw [getLast?_map, getLast?_append]
        rw [getLast?_cons, Option.some_or] at h3
        cases hd : (blk.instrs.drop (k + 1)).getLast? with
        | none => rw [getLast?_eq_none_iff] at hd; exact absurd hd hne
        | some j =>
          rw [hd] at h3
          simp only [Option.getD_some, Option.some.injEq] at h3
          rw [h3]; rfl
    · have : "sub_block" = "FunctionReturn" := hj
      exact absurd this (by decide)
    · have hj' : (if X.jumpType = "FunctionReturn" then "unconditional" else X.jumpType) = "FunctionReturn" := hj
      split at hj'
      · exact absurd hj' (by decide)
      · contradiction
    · obtain ⟨h1, h2, i, h3, h4⟩ := okH.returns x' X hX hj
      refine ⟨by rw [succs_other, h1]; rfl, ?_, renameInstr (outMap F call) i, ?_, h4⟩
      · show X.cond.map _ = none
        rw [h2]; rfl
      · show (X.instrs.map (renameInstr (outMap F call))).getLast? = _
        rw [getLast?_map, h3]; rfl
  onlyReturns := by
    intro x' X' hX' j i' hij ho
    rcases kinds Sh hX' with ⟨rfl, rfl⟩ | ⟨rfl, rfl⟩ | ⟨X, hX, rfl⟩ | ⟨X, hxb, hX, rfl⟩
    · have hij' : ((phisOf F call ++ blk.instrs.drop (k + 1)).map (renameInstr (outMap F call)))[j]? = some i' := hij
      rw [getElem?_map] at hij'
      obtain ⟨i, hi, rfl⟩ := Option.map_eq_some_iff.1 hij'
      have hnl : ¬ j < (phisOf F call).length := by
        intro hlt
        rw [getElem?_append_left hlt] at hi
        have h1 := S.phisOf_phi (mem_of_getElem? hi)
        unfold isPhi at h1
        have h2 : i.op = "functionReturn" := ho
        rw [h2] at h1
        exact absurd h1 (by decide)
      rw [getElem?_append_right (by omega), getElem?_drop] at hi
      obtain ⟨h1, h2⟩ := okH.onlyReturns b blk S.block _ i hi ho
      refine ⟨h1, ?_⟩
      show j + 1 = ((phisOf F call ++ blk.instrs.drop (k + 1)).map (renameInstr (outMap F call))).length
      rw [length_map, length_append, length_drop]
      omega
    · have hij' : ((blk.instrs.take k).map (renameInstr (outMap F call)))[j]? = some i' := hij
      rw [getElem?_map] at hij'
      obtain ⟨i, hi, rfl⟩ := Option.map_eq_some_iff.1 hij'
      have hlt := (List.getElem?_eq_some_iff.1 hi).1
      rw [length_take] at hlt
      rw [getElem?_take_of_lt (by omega)] at hi
      have h2 := (okH.onlyReturns b blk S.block j i hi ho).2
      have h3 := (List.getElem?_eq_some_iff.1 S.callAt).1
      omega
    · exfalso
      rcases S.instr_source Sh hX' (mem_of_getElem? hij) with ⟨x, Y, i, hY, hi, _, e⟩ | ⟨Y, i, _, _, e, hne⟩ | ⟨e, _⟩
      · have hij' := hij
        rw [S.callee_instrs, getElem?_map] at hij'
        obtain ⟨i0, hi0, e0⟩ := Option.map_eq_some_iff.1 hij'
        have ho0 : i0.op = "functionReturn" := by rw [← e0] at ho; exact ho
        split at hi0
        · next hx =>
          obtain ⟨_, pre, h1, _, _, _, _, _, _, h8⟩ := S.ret_block hx hX
          rw [h1, dropLast_concat] at hi0
          exact h8 i0 (mem_of_getElem? hi0) ho0
        · next hx => exact hx ((S.exits.returns x').2 ⟨X, hX, (S.onlyReturns x' X hX j i0 hi0 ho0).1⟩)
      · rw [e] at ho; exact hne ho
      · exact (S.F_ne hX).2.1 e
    · have hij' : (X.instrs.map (renameInstr (outMap F call)))[j]? = some i' := hij
      rw [getElem?_map] at hij'
      obtain ⟨i, hi, rfl⟩ := Option.map_eq_some_iff.1 hij'
      obtain ⟨h1, h2⟩ := okH.onlyReturns x' X hX j i hi ho
      refine ⟨h1, ?_⟩
      show j + 1 = (X.instrs.map (renameInstr (outMap F call))).length
      rw [length_map]; exact h2

end Site
end

end Grey.Inline
