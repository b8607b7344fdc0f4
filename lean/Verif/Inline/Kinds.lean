/-
The graph after the inlining of a call is well-formed.
-/
import Verif.Inline.Ok
namespace Grey.Inline
open List Grey.Cfg

section
variable {O : Obj} {h : Option String} {f : String} {H F : Component} {s b : String} {k : Nat} {blk : Block} {call : Instr}
  {G' : BlockList} (S : Site O h f H F s b k blk call) (Sh : Shape F call s b k blk H.body G')

namespace Site

include Sh in
/-- The blocks after inlining. -/
theorem kinds {x : String} {X' : Block} (hX : G'.get x = some X') :
    (x = secondId b ∧ X' = renameBlock (outMap F call) (secondBlock F call b k blk)) ∨
    (x = firstId b ∧ X' = renameBlock (outMap F call) (firstBlock s b k blk)) ∨
    (∃ X, F.body.get x = some X ∧ X' = renameBlock (outMap F call) (calleeBlock F call s b x X)) ∨
    (∃ X, x ≠ b ∧ H.body.get x = some X ∧ X' = renameBlock (outMap F call) (fixOther b blk x X)) := by
  rw [Sh.get] at hX
  split at hX
  · next hx => exact Or.inl ⟨hx, (Option.some.inj hX).symm⟩
  · split at hX
    · next hx => exact Or.inr (Or.inl ⟨hx, (Option.some.inj hX).symm⟩)
    · split at hX
      · cases hX
      · next hxb =>
        split at hX
        · next X hF => exact Or.inr (Or.inr (Or.inl ⟨X, hF, (Option.some.inj hX).symm⟩))
        · obtain ⟨X, hH, e⟩ := Option.map_eq_some_iff.1 hX
          exact Or.inr (Or.inr (Or.inr ⟨X, hxb, hH, e.symm⟩))

theorem succs_first : (renameBlock (outMap F call) (firstBlock s b k blk)).succs = [s] := rfl
theorem succs_second : (renameBlock (outMap F call) (secondBlock F call b k blk)).succs = blk.succs := rfl

include S in
theorem returns_jump {x : String} {X : Block} (hX : F.body.get x = some X) (hx : x ∈ F.body.returns) : X.jumpTo = none ∧ X.fallsTo = none := by
  obtain ⟨_, _, _, _, _, _, hs, _⟩ := S.ret_block hx hX
  unfold Block.succs at hs
  rw [append_eq_nil_iff] at hs
  exact ⟨by simpa using hs.1, by simpa using hs.2⟩

include S in
theorem succs_callee {x : String} {X : Block} (hX : F.body.get x = some X) :
    (renameBlock (outMap F call) (calleeBlock F call s b x X)).succs = if x ∈ F.body.returns then [secondId b] else X.succs := by
  by_cases hx : x ∈ F.body.returns
  · rw [if_pos hx]
    show (if x ∈ F.body.returns then some (secondId b) else X.jumpTo).toList ++ X.fallsTo.toList = _
    rw [if_pos hx, (S.returns_jump hX hx).2]
    rfl
  · rw [if_neg hx]
    show (if x ∈ F.body.returns then some (secondId b) else X.jumpTo).toList ++ X.fallsTo.toList = _
    rw [if_neg hx]
    rfl

theorem succs_other {x : String} {X : Block} :
    (renameBlock (outMap F call) (fixOther b blk x X)).succs = X.succs.map (target b) := by
  show (redirect b (firstId b) X.jumpTo).toList ++ (redirect b (firstId b) X.fallsTo).toList = _
  unfold Block.succs redirect
  rw [map_append]
  cases X.jumpTo <;> cases X.fallsTo <;> rfl

include S

theorem target_ne {t x : String} (h1 : x ≠ firstId b) : target b t = x ↔ t = x ∧ x ≠ b := by
  unfold target
  split
  · next ht =>
    subst ht
    constructor
    · intro e; exact absurd e.symm h1
    · rintro ⟨rfl, h2⟩; exact absurd rfl h2
  · next ht =>
    constructor
    · rintro rfl; exact ⟨rfl, ht⟩
    · exact fun e => e.1

theorem target_first {t : String} (h1 : t ≠ firstId b) : target b t = firstId b ↔ t = b := by
  unfold target
  split
  · next ht => simp [ht]
  · next ht => simp [ht, h1]

theorem succ_H {x t : String} {X : Block} (hX : H.body.get x = some X) (ht : t ∈ X.succs) :
    t ≠ firstId b ∧ t ≠ secondId b ∧ F.body.get t = none := by
  obtain ⟨T, hT⟩ := S.saneH.coherent.targets x X hX t ht
  exact S.H_ne hT

theorem succ_F {x t : String} {X : Block} (hX : F.body.get x = some X) (ht : t ∈ X.succs) :
    t ≠ firstId b ∧ t ≠ secondId b ∧ t ≠ b := by
  obtain ⟨T, hT⟩ := S.saneF.coherent.targets x X hX t ht
  exact S.F_ne hT

theorem pred_H {x t : String} {X : Block} (hX : H.body.get x = some X) (ht : t ∈ X.comesFrom) :
    t ≠ firstId b ∧ t ≠ secondId b ∧ F.body.get t = none := by
  obtain ⟨T, hT⟩ := S.saneH.coherent.preds x X hX t ht
  exact S.H_ne hT

theorem pred_F {x t : String} {X : Block} (hX : F.body.get x = some X) (ht : t ∈ X.comesFrom) :
    t ≠ firstId b ∧ t ≠ secondId b ∧ t ≠ b := by
  obtain ⟨T, hT⟩ := S.saneF.coherent.preds x X hX t ht
  exact S.F_ne hT

theorem start_get : ∃ T, F.body.get s = some T := by
  obtain ⟨t, T, ht, hT⟩ := S.saneF.start
  rw [S.start] at ht
  cases ht
  exact ⟨T, hT⟩

theorem not_pred_self : b ∉ blk.comesFrom := fun hb => S.self ((S.saneH.coherent.edges b b blk blk S.block S.block).1 hb)

theorem ret_get {x : String} (hx : x ∈ F.body.returns) : ∃ X, F.body.get x = some X := by
  obtain ⟨E, _, _, hE, _⟩ := S.ret_at hx
  exact ⟨E, hE⟩

/-- The recorded predecessors of the other blocks of the caller. -/
theorem mem_comesFrom_other {x : String} {X : Block} (hX : H.body.get x = some X) {p : String} :
    p ∈ (renameBlock (outMap F call) (fixOther b blk x X)).comesFrom ↔ (p ∈ X.comesFrom ∧ p ≠ b) ∨ (p = secondId b ∧ x ∈ blk.succs) := by
  show p ∈ (if x ∈ blk.succs then replaceName b (secondId b) X.comesFrom else X.comesFrom) ↔ _
  have hbx : b ∈ X.comesFrom ↔ x ∈ blk.succs := S.saneH.coherent.edges b x blk X S.block hX
  by_cases hxs : x ∈ blk.succs
  · rw [if_pos hxs, replaceName, mem_map]
    constructor
    · rintro ⟨q, hq, e⟩
      split at e
      · exact Or.inr ⟨e.symm, hxs⟩
      · subst e; exact Or.inl ⟨hq, by assumption⟩
    · rintro (⟨h1, h2⟩ | ⟨h1, _⟩)
      · exact ⟨p, h1, by rw [if_neg h2]⟩
      · exact ⟨b, hbx.2 hxs, by rw [if_pos rfl, h1]⟩
  · rw [if_neg hxs]
    constructor
    · intro hp
      exact Or.inl ⟨hp, by rintro rfl; exact hxs (hbx.1 hp)⟩
    · rintro (⟨h1, _⟩ | ⟨_, h2⟩)
      · exact h1
      · exact absurd h2 hxs

include Sh in
theorem sane_after : Sane G' := by
  obtain ⟨S0, hS0⟩ := S.start_get
  have hrn : ∀ x, x ∈ F.body.returns → x ≠ firstId b ∧ x ≠ secondId b ∧ x ≠ b := fun x hx => S.F_ne (S.ret_get hx).choose_spec
  have hsne := S.F_ne hS0
  have hfs := firstId_ne_secondId b
  have cf_second : (renameBlock (outMap F call) (secondBlock F call b k blk)).comesFrom = F.body.returns := rfl
  have cf_first : (renameBlock (outMap F call) (firstBlock s b k blk)).comesFrom = blk.comesFrom := rfl
  have cf_callee : ∀ x X, (renameBlock (outMap F call) (calleeBlock F call s b x X)).comesFrom = if x = s then X.comesFrom ++ [firstId b] else X.comesFrom :=
    fun _ _ => rfl
  refine ⟨⟨Sh.ids, ?_, ?_, ?_, ?_⟩, ?_, ?_, ?_⟩
  · -- edges
    intro p q P Q hP hQ
    rcases kinds Sh hQ with ⟨rfl, rfl⟩ | ⟨rfl, rfl⟩ | ⟨Q0, hQ0, rfl⟩ | ⟨Q0, hqb, hQ0, rfl⟩
    · -- into the second half
      rw [cf_second]
      rcases kinds Sh hP with ⟨rfl, rfl⟩ | ⟨rfl, rfl⟩ | ⟨P0, hP0, rfl⟩ | ⟨P0, hpb, hP0, rfl⟩
      · rw [succs_second]
        exact ⟨fun hp => absurd rfl (hrn _ hp).2.1, fun hp => absurd rfl (S.succ_H S.block hp).2.1⟩
      · rw [succs_first, mem_singleton]
        exact ⟨fun hp => absurd rfl (hrn _ hp).1, fun hp => absurd hp.symm hsne.2.1⟩
      · rw [S.succs_callee hP0]
        split
        · next hx => simp [hx]
        · next hx =>
          exact ⟨fun hp => absurd hp hx, fun hp => absurd rfl (S.succ_F hP0 hp).2.1⟩
      · rw [succs_other, mem_map]
        constructor
        · intro hp
          obtain ⟨X, hX⟩ := S.ret_get hp
          rw [S.disj p X hX] at hP0; cases hP0
        · rintro ⟨t, ht, e⟩
          rw [S.target_ne (Ne.symm hfs)] at e
          exact absurd e.1 (S.succ_H hP0 ht).2.1
    · -- into the first half
      rw [cf_first]
      rcases kinds Sh hP with ⟨rfl, rfl⟩ | ⟨rfl, rfl⟩ | ⟨P0, hP0, rfl⟩ | ⟨P0, hpb, hP0, rfl⟩
      · rw [succs_second]
        exact ⟨fun hp => absurd rfl (S.pred_H S.block hp).2.1, fun hp => absurd rfl (S.succ_H S.block hp).1⟩
      · rw [succs_first, mem_singleton]
        exact ⟨fun hp => absurd rfl (S.pred_H S.block hp).1, fun hp => absurd hp.symm hsne.1⟩
      · rw [S.succs_callee hP0]
        constructor
        · intro hp
          have := (S.pred_H S.block hp).2.2
          rw [hP0] at this; cases this
        · split
          · intro hp; rw [mem_singleton] at hp; exact absurd hp hfs
          · intro hp; exact absurd rfl (S.succ_F hP0 hp).1
      · rw [succs_other, mem_map, S.saneH.coherent.edges p b P0 blk hP0 S.block]
        constructor
        · intro hp; exact ⟨b, hp, by simp [target]⟩
        · rintro ⟨t, ht, e⟩
          rw [S.target_first (S.succ_H hP0 ht).1] at e
          exact e ▸ ht
    · -- into the function
      rw [cf_callee]
      have hqne := S.F_ne hQ0
      rcases kinds Sh hP with ⟨rfl, rfl⟩ | ⟨rfl, rfl⟩ | ⟨P0, hP0, rfl⟩ | ⟨P0, hpb, hP0, rfl⟩
      · rw [succs_second]
        constructor
        · intro hp
          split at hp
          · rw [mem_append, mem_singleton] at hp
            rcases hp with hp | hp
            · exact absurd rfl (S.pred_F hQ0 hp).2.1
            · exact absurd hp.symm hfs
          · exact absurd rfl (S.pred_F hQ0 hp).2.1
        · intro hp
          have := (S.succ_H S.block hp).2.2
          rw [hQ0] at this; cases this
      · rw [succs_first, mem_singleton]
        constructor
        · intro hp
          split at hp
          · assumption
          · exact absurd rfl (S.pred_F hQ0 hp).1
        · rintro rfl; simp
      · rw [S.succs_callee hP0]
        have hpne := S.F_ne hP0
        have e1 : p ∈ (if q = s then Q0.comesFrom ++ [firstId b] else Q0.comesFrom) ↔ p ∈ Q0.comesFrom := by
          split
          · simp [hpne.1]
          · rfl
        rw [e1, S.saneF.coherent.edges p q P0 Q0 hP0 hQ0]
        split
        · next hx =>
          obtain ⟨_, _, _, _, _, _, hs, _⟩ := S.ret_block hx hP0
          rw [hs]
          simp [hqne.2.1]
        · rfl
      · rw [succs_other, mem_map]
        have hpne := S.H_ne hP0
        constructor
        · intro hp
          have : p ∈ Q0.comesFrom := by
            split at hp
            · simpa [hpne.1] using hp
            · exact hp
          obtain ⟨T, hT⟩ := S.saneF.coherent.preds q Q0 hQ0 p this
          rw [hpne.2.2] at hT; cases hT
        · rintro ⟨t, ht, e⟩
          rw [S.target_ne hqne.1] at e
          have := (S.succ_H hP0 ht).2.2
          rw [e.1, hQ0] at this; cases this
    · -- into another block of the caller
      rw [S.mem_comesFrom_other hQ0]
      have hqne := S.H_ne hQ0
      rcases kinds Sh hP with ⟨rfl, rfl⟩ | ⟨rfl, rfl⟩ | ⟨P0, hP0, rfl⟩ | ⟨P0, hpb, hP0, rfl⟩
      · rw [succs_second]
        constructor
        · rintro (⟨h1, _⟩ | ⟨_, h2⟩)
          · exact absurd rfl (S.pred_H hQ0 h1).2.1
          · exact h2
        · intro hp; exact Or.inr ⟨rfl, hp⟩
      · rw [succs_first, mem_singleton]
        constructor
        · rintro (⟨h1, _⟩ | ⟨h2, _⟩)
          · exact absurd rfl (S.pred_H hQ0 h1).1
          · exact absurd h2 hfs
        · rintro rfl
          rw [hqne.2.2] at hS0; cases hS0
      · rw [S.succs_callee hP0]
        have hpne := S.F_ne hP0
        constructor
        · rintro (⟨h1, _⟩ | ⟨h2, _⟩)
          · have := (S.pred_H hQ0 h1).2.2
            rw [hP0] at this; cases this
          · exact absurd h2 hpne.2.1
        · split
          · intro hp; rw [mem_singleton] at hp; exact absurd hp hqne.2.1
          · intro hp
            obtain ⟨T, hT⟩ := S.saneF.coherent.targets p P0 hP0 q hp
            rw [hqne.2.2] at hT; cases hT
      · rw [succs_other, mem_map, S.saneH.coherent.edges p q P0 Q0 hP0 hQ0]
        have hpne := S.H_ne hP0
        constructor
        · rintro (⟨h1, _⟩ | ⟨h2, _⟩)
          · exact ⟨q, h1, (S.target_ne hqne.1).2 ⟨rfl, hqb⟩⟩
          · exact absurd h2 hpne.2.1
        · rintro ⟨t, ht, e⟩
          rw [S.target_ne hqne.1] at e
          exact Or.inl ⟨e.1 ▸ ht, hpb⟩
  · -- predecessors exist
    intro q Q hQ x hx
    rcases kinds Sh hQ with ⟨rfl, rfl⟩ | ⟨rfl, rfl⟩ | ⟨Q0, hQ0, rfl⟩ | ⟨Q0, hqb, hQ0, rfl⟩
    · obtain ⟨X, hX⟩ := S.ret_get hx
      exact ⟨_, S.get_callee Sh hX⟩
    · rw [cf_first] at hx
      obtain ⟨X, hX⟩ := S.saneH.coherent.preds b blk S.block x hx
      refine ⟨_, S.get_other Sh ?_ hX⟩
      rintro rfl; exact S.not_pred_self hx
    · rw [cf_callee] at hx
      have : x ∈ Q0.comesFrom ∨ x = firstId b := by
        split at hx
        · simpa using hx
        · exact Or.inl hx
      rcases this with hx | rfl
      · obtain ⟨X, hX⟩ := S.saneF.coherent.preds q Q0 hQ0 x hx
        exact ⟨_, S.get_callee Sh hX⟩
      · exact ⟨_, get_first Sh⟩
    · rw [S.mem_comesFrom_other hQ0] at hx
      rcases hx with ⟨h1, h2⟩ | ⟨rfl, _⟩
      · obtain ⟨X, hX⟩ := S.saneH.coherent.preds q Q0 hQ0 x h1
        exact ⟨_, S.get_other Sh h2 hX⟩
      · exact ⟨_, get_second Sh⟩
  · -- targets exist
    have other : ∀ t T, t ≠ b → H.body.get t = some T → ∃ Q, G'.get t = some Q := fun t T ht hT => ⟨_, S.get_other Sh ht hT⟩
    intro p P hP x hx
    rcases kinds Sh hP with ⟨rfl, rfl⟩ | ⟨rfl, rfl⟩ | ⟨P0, hP0, rfl⟩ | ⟨P0, hpb, hP0, rfl⟩
    · rw [succs_second] at hx
      obtain ⟨X, hX⟩ := S.saneH.coherent.targets b blk S.block x hx
      refine other x X ?_ hX
      rintro rfl; exact S.self hx
    · rw [succs_first, mem_singleton] at hx
      subst hx
      exact ⟨_, S.get_callee Sh hS0⟩
    · rw [S.succs_callee hP0] at hx
      split at hx
      · rw [mem_singleton] at hx; subst hx; exact ⟨_, get_second Sh⟩
      · obtain ⟨X, hX⟩ := S.saneF.coherent.targets p P0 hP0 x hx
        exact ⟨_, S.get_callee Sh hX⟩
    · rw [succs_other, mem_map] at hx
      obtain ⟨t, ht, rfl⟩ := hx
      obtain ⟨X, hX⟩ := S.saneH.coherent.targets p P0 hP0 t ht
      unfold target
      split
      · exact ⟨_, get_first Sh⟩
      · next htb => exact other t X htb hX
  · -- once
    intro q Q hQ
    rcases kinds Sh hQ with ⟨rfl, rfl⟩ | ⟨rfl, rfl⟩ | ⟨Q0, hQ0, rfl⟩ | ⟨Q0, hqb, hQ0, rfl⟩
    · exact S.exits.once.2
    · exact S.saneH.coherent.once b blk S.block
    · rw [cf_callee]
      have := S.saneF.coherent.once q Q0 hQ0
      split
      · rw [nodup_append]
        refine ⟨this, by simp, ?_⟩
        intro a ha c hc
        rw [mem_singleton] at hc
        rw [hc]
        exact (S.pred_F hQ0 ha).1
      · exact this
    · show (if q ∈ blk.succs then replaceName b (secondId b) Q0.comesFrom else Q0.comesFrom).Nodup
      have := S.saneH.coherent.once q Q0 hQ0
      split
      · exact nodup_replaceName this fun hin => (S.pred_H hQ0 hin).2.1 rfl
      · exact this
  · -- no double edges
    intro x X hX t ht
    rcases kinds Sh hX with ⟨rfl, rfl⟩ | ⟨rfl, rfl⟩ | ⟨X0, hX0, rfl⟩ | ⟨X0, hxb, hX0, rfl⟩
    · exact S.saneH.noDouble b blk S.block t ht
    · have h1 : (none : Option String) = some t := ht.1
      cases h1
    · have h1 : (if x ∈ F.body.returns then some (secondId b) else X0.jumpTo) = some t := ht.1
      have h2 : X0.fallsTo = some t := ht.2
      split at h1
      · next hx => rw [(S.returns_jump hX0 hx).2] at h2; cases h2
      · exact S.saneF.noDouble x X0 hX0 t ⟨h1, h2⟩
    · have h1 : X0.jumpTo.map (fun y => if y = b then firstId b else y) = some t := ht.1
      have h2 : X0.fallsTo.map (fun y => if y = b then firstId b else y) = some t := ht.2
      obtain ⟨u, hu, e1⟩ := Option.map_eq_some_iff.1 h1
      obtain ⟨v, hv, e2⟩ := Option.map_eq_some_iff.1 h2
      have hu' := (S.succ_H hX0 (mem_succs.2 (Or.inl hu))).1
      have hv' := (S.succ_H hX0 (mem_succs.2 (Or.inr hv))).1
      have : u = v := by
        by_cases hub : u = b <;> by_cases hvb : v = b
        · rw [hub, hvb]
        · rw [if_pos hub] at e1; rw [if_neg hvb] at e2; exact absurd (e2.trans e1.symm) hv'
        · rw [if_neg hub] at e1; rw [if_pos hvb] at e2; exact absurd (e1.trans e2.symm) hu'
        · rw [if_neg hub] at e1; rw [if_neg hvb] at e2; exact e1.trans e2.symm
      subst this
      exact S.saneH.noDouble x X0 hX0 u ⟨hu, hv⟩
  · -- entries
    intro q Q hQ x hx
    rcases kinds Sh hQ with ⟨rfl, rfl⟩ | ⟨rfl, rfl⟩ | ⟨Q0, hQ0, rfl⟩ | ⟨Q0, hqb, hQ0, rfl⟩
    · have hx' : x ∈ entriesOf F call := hx
      show x ∈ F.body.returns
      unfold entriesOf at hx'
      split at hx'
      · cases hx'
      · cases hx'
      · exact hx'
    · exact S.saneH.entries b blk S.block x hx
    · have := S.saneF.entries q Q0 hQ0 x hx
      rw [cf_callee]
      split
      · exact mem_append.2 (Or.inl this)
      · exact this
    · have hx' : x ∈ (if q ∈ blk.succs then replaceName b (secondId b) Q0.entries else Q0.entries) := hx
      show x ∈ (if q ∈ blk.succs then replaceName b (secondId b) Q0.comesFrom else Q0.comesFrom)
      split at hx' <;> rename_i hq
      · rw [if_pos hq]
        unfold replaceName at hx' ⊢
        obtain ⟨y, hy, e⟩ := mem_map.1 hx'
        exact mem_map.2 ⟨y, S.saneH.entries q Q0 hQ0 y hy, e⟩
      · rw [if_neg hq]
        exact S.saneH.entries q Q0 hQ0 x hx'
  · obtain ⟨t, T, ht, hT⟩ := S.saneH.start
    rw [Sh.start, ht]
    by_cases htb : t = b
    · subst htb
      exact ⟨_, _, by rw [if_pos rfl], get_first Sh⟩
    · exact ⟨t, _, by rw [if_neg (by simpa using htb)], S.get_other Sh htb hT⟩

end Site
end

end Grey.Inline
