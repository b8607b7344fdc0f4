/-
Inlining a call keeps graphs tidy.
-/
import Verif.Prep.Rename
namespace Grey.Prep
open List Grey.Cfg Grey.Inline

theorem mem_succ {G : BlockList} {x t : String} : t ∈ G.succ x ↔ ∃ X, G.get x = some X ∧ t ∈ X.succs := by
  unfold BlockList.succ
  cases hX : G.get x with
  | none => simp
  | some X => simp

/-- The end and the start of a block of the caller after inlining. -/
def outOf (b x : String) : String := if x = b then secondId b else x
def inOf (b x : String) : String := if x = b then firstId b else x

section
variable {O : Obj} {h : Option String} {f : String} {H F : Component} {s b : String} {k : Nat} {blk : Block} {call : Instr}
  {G' : BlockList} (S : Site O h f H F s b k blk call) (Sh : Shape F call s b k blk H.body G')

/-- The edges inside the inlined code. -/
def Inner (F : Component) (s b : String) (u v : String) : Prop :=
  (u = firstId b ∧ v = s) ∨ (∃ X, F.body.get u = some X ∧ v ∈ X.succs) ∨ (u ∈ F.body.returns ∧ v = secondId b)

include S Sh

/-- The edges after inlining. -/
theorem edge_iff {u v : String} : v ∈ G'.succ u ↔ (∃ x y, u = outOf b x ∧ v = inOf b y ∧ y ∈ H.body.succ x) ∨ Inner F s b u v := by
  rw [mem_succ]
  constructor
  · rintro ⟨U, hU, hv⟩
    rcases Site.kinds Sh hU with ⟨rfl, rfl⟩ | ⟨rfl, rfl⟩ | ⟨X, hX, rfl⟩ | ⟨X, hxb, hX, rfl⟩
    · rw [Site.succs_second] at hv
      left
      refine ⟨b, v, by simp [outOf], ?_, mem_succ.2 ⟨blk, S.block, hv⟩⟩
      have : v ≠ b := by rintro rfl; exact S.self hv
      simp [inOf, this]
    · rw [Site.succs_first, mem_singleton] at hv
      exact Or.inr (Or.inl ⟨rfl, hv⟩)
    · rw [S.succs_callee hX] at hv
      split at hv
      · next hr => rw [mem_singleton] at hv; exact Or.inr (Or.inr (Or.inr ⟨hr, hv⟩))
      · exact Or.inr (Or.inr (Or.inl ⟨X, hX, hv⟩))
    · rw [Site.succs_other, mem_map] at hv
      obtain ⟨t, ht, rfl⟩ := hv
      exact Or.inl ⟨u, t, by simp [outOf, hxb], rfl, mem_succ.2 ⟨X, hX, ht⟩⟩
  · rintro (⟨x, y, rfl, rfl, hy⟩ | ⟨rfl, rfl⟩ | ⟨X, hX, hv⟩ | ⟨hu, rfl⟩)
    · obtain ⟨X, hX, hy⟩ := mem_succ.1 hy
      by_cases hx : x = b
      · subst hx
        rw [S.block] at hX
        cases hX
        have : y ≠ x := fun e => S.self (e ▸ hy)
        refine ⟨_, by rw [outOf, if_pos rfl]; exact Site.get_second Sh, ?_⟩
        rw [Site.succs_second, inOf, if_neg this]
        exact hy
      · refine ⟨_, by rw [outOf, if_neg hx]; exact S.get_other Sh hx hX, ?_⟩
        rw [Site.succs_other]
        exact mem_map_of_mem (f := target b) hy
    · exact ⟨_, Site.get_first Sh, by rw [Site.succs_first]; simp⟩
    · refine ⟨_, S.get_callee Sh hX, ?_⟩
      rw [S.succs_callee hX, if_neg]
      · exact hv
      · intro hr
        obtain ⟨h1, h2⟩ := S.returns_jump hX hr
        rcases mem_succs.1 hv with h | h
        · rw [h1] at h; cases h
        · rw [h2] at h; cases h
    · obtain ⟨X, hX⟩ := S.ret_get hu
      exact ⟨_, S.get_callee Sh hX, by rw [S.succs_callee hX, if_pos hu]; simp⟩

omit Sh in
theorem host_block {x y : String} (hy : y ∈ H.body.succ x) : (∃ X, H.body.get x = some X) ∧ ∃ Y, H.body.get y = some Y := by
  obtain ⟨X, hX, hy⟩ := mem_succ.1 hy
  exact ⟨⟨X, hX⟩, S.saneH.coherent.targets x X hX y hy⟩

omit Sh in
theorem out_inj {x y : String} (hx : ∃ X, H.body.get x = some X) (hy : ∃ Y, H.body.get y = some Y) (e : outOf b x = outOf b y) : x = y := by
  obtain ⟨X, hX⟩ := hx
  obtain ⟨Y, hY⟩ := hy
  unfold outOf at e
  split at e <;> split at e
  · next h1 h2 => rw [h1, h2]
  · exact absurd e.symm (S.H_ne hY).2.1
  · exact absurd e (S.H_ne hX).2.1
  · exact e

omit Sh in
theorem in_inj {x y : String} (hx : ∃ X, H.body.get x = some X) (hy : ∃ Y, H.body.get y = some Y) (e : inOf b x = inOf b y) : x = y := by
  obtain ⟨X, hX⟩ := hx
  obtain ⟨Y, hY⟩ := hy
  unfold inOf at e
  split at e <;> split at e
  · next h1 h2 => rw [h1, h2]
  · exact absurd e.symm (S.H_ne hY).1
  · exact absurd e (S.H_ne hX).1
  · exact e

/-- A run of the caller. -/
theorem chain_host {x y : String} (hy : y ∈ H.body.succ x) (hc : Chain G' (outOf b x) (inOf b y)) : Chain H.body x y := by
  refine ⟨fun z => ⟨fun hz => ?_, fun e => e ▸ hy⟩, fun z => ⟨fun hz => ?_, fun e => e ▸ hy⟩⟩
  · exact in_inj S (host_block S hz).2 (host_block S hy).2 ((hc.1 _).1 ((edge_iff S Sh).2 (Or.inl ⟨x, z, rfl, rfl, hz⟩)))
  · exact out_inj S (host_block S hz).1 (host_block S hy).1 ((hc.2 _).1 ((edge_iff S Sh).2 (Or.inl ⟨z, y, rfl, rfl, hz⟩)))

/-- A run of the function. -/
theorem chain_callee {u v : String} (hv : v ∈ F.body.succ u) (hc : Chain G' u v) : Chain F.body u v := by
  refine ⟨fun z => ⟨fun hz => ?_, fun e => e ▸ hv⟩, fun z => ⟨fun hz => ?_, fun e => e ▸ hv⟩⟩
  · exact (hc.1 _).1 ((edge_iff S Sh).2 (Or.inr (Or.inr (Or.inl (mem_succ.1 hz)))))
  · exact (hc.2 _).1 ((edge_iff S Sh).2 (Or.inr (Or.inr (Or.inl (mem_succ.1 hz)))))

/-- The block of the caller which a block stands for. -/
def backOf (F : Component) (b x : String) : String := if x = firstId b ∨ x = secondId b ∨ (F.body.get x).isSome = true then b else x

omit Sh in
theorem back_out {x : String} (hx : ∃ X, H.body.get x = some X) : backOf F b (outOf b x) = x := by
  obtain ⟨X, hX⟩ := hx
  unfold outOf
  split
  · next h => simp [backOf, h]
  · have := S.H_ne hX
    simp [backOf, this]

omit Sh in
theorem back_in {x : String} (hx : ∃ X, H.body.get x = some X) : backOf F b (inOf b x) = x := by
  obtain ⟨X, hX⟩ := hx
  unfold inOf
  split
  · next h => simp [backOf, h]
  · have := S.H_ne hX
    simp [backOf, this]

omit Sh in
theorem back_inner {u v : String} (hi : Inner F s b u v) : backOf F b u = b ∧ backOf F b v = b := by
  rcases hi with ⟨rfl, rfl⟩ | ⟨X, hX, hv⟩ | ⟨hu, rfl⟩
  · obtain ⟨T, hT⟩ := S.start_get
    simp [backOf, hT]
  · obtain ⟨Y, hY⟩ := S.saneF.coherent.targets u X hX v hv
    simp [backOf, hX, hY]
  · obtain ⟨X, hX⟩ := S.ret_get hu
    simp [backOf, hX]

omit Sh in
theorem inner_of_second {v : String} : ¬ Inner F s b (secondId b) v := by
  rintro (⟨h1, _⟩ | ⟨X, hX, _⟩ | ⟨h1, _⟩)
  · exact firstId_ne_secondId b h1.symm
  · exact (S.F_ne hX).2.1 rfl
  · obtain ⟨X, hX⟩ := S.ret_get h1
    exact (S.F_ne hX).2.1 rfl

/-- Runs after inlining. -/
theorem run_cases {u w : String} (ht : Relation.TransGen (Chain G') u w) :
    Relation.TransGen (fun u v => Inner F s b u v ∧ Chain G' u v) u w ∨ Relation.TransGen (Chain H.body) (backOf F b u) (backOf F b w) := by
  have one : ∀ {u v}, Chain G' u v → (Inner F s b u v ∧ Chain G' u v) ∨ Chain H.body (backOf F b u) (backOf F b v) := by
    intro u v hc
    rcases (edge_iff S Sh).1 ((hc.1 v).2 rfl) with ⟨x, y, rfl, rfl, hy⟩ | hi
    · right
      rw [back_out S (host_block S hy).1, back_in S (host_block S hy).2]
      exact chain_host S Sh hy hc
    · exact Or.inl ⟨hi, hc⟩
  induction ht with
  | single hc =>
    rcases one hc with h1 | h1
    · exact Or.inl (.single h1)
    · exact Or.inr (.single h1)
  | tail _ hc ih =>
    rename_i c d _
    rcases one hc with h1 | h1
    · rcases ih with h2 | h2
      · exact Or.inl (h2.tail h1)
      · right
        have e := back_inner S h1.1
        rw [e.2]
        rw [e.1] at h2
        exact h2
    · right
      rcases ih with h2 | h2
      · have e1 : backOf F b u = b := by
          obtain ⟨m, hm, _⟩ := Relation.TransGen.head'_iff.1 h2
          exact (back_inner S hm.1).1
        have e2 : backOf F b c = b := by
          obtain ⟨m, _, hm⟩ := Relation.TransGen.tail'_iff.1 h2
          exact (back_inner S hm.1).2
        rw [e1]
        rw [e2] at h1
        exact .single h1
      · exact h2.tail h1

theorem inner_run {u w : String} (hu : ∃ X, F.body.get u = some X)
    (ht : Relation.TransGen (fun u v => Inner F s b u v ∧ Chain G' u v) u w) : Relation.TransGen (Chain F.body) u w ∨ w = secondId b := by
  have one : ∀ {u v}, (∃ X, F.body.get u = some X) → Inner F s b u v ∧ Chain G' u v → Chain F.body u v ∨ v = secondId b := by
    rintro u v ⟨X, hX⟩ ⟨hi, hc⟩
    rcases hi with ⟨rfl, _⟩ | ⟨Y, hY, hv⟩ | ⟨_, h1⟩
    · exact absurd rfl (S.F_ne hX).1
    · exact Or.inl (chain_callee S Sh (mem_succ.2 ⟨Y, hY, hv⟩) hc)
    · exact Or.inr h1
  induction ht with
  | single hc => exact (one hu hc).imp_left .single
  | tail _ hc ih =>
    rcases ih with h1 | h1
    · obtain ⟨m, _, hm⟩ := Relation.TransGen.tail'_iff.1 h1
      obtain ⟨X, hX, hv⟩ := mem_succ.1 ((hm.1 _).2 rfl)
      exact (one (S.saneF.coherent.targets m X hX _ hv) hc).imp_left h1.tail
    · rw [h1] at hc
      exact absurd hc.1 (inner_of_second S)

/-- Inlining a call keeps the caller tidy. -/
theorem tidy_after (hH : Tidy H.body) (hF : Tidy F.body) : Tidy G' := by
  refine ⟨?_, ?_, ?_⟩
  · intro t x ht hx
    have hstart : ∃ t0, H.body.start = some t0 ∧ t = inOf b t0 := by
      rw [Sh.start] at ht
      by_cases hb : H.body.start = some b
      · rw [if_pos hb] at ht
        exact ⟨b, hb, by rw [inOf, if_pos rfl]; exact (Option.some.inj ht).symm⟩
      · rw [if_neg hb] at ht
        refine ⟨t, ht, ?_⟩
        rw [inOf, if_neg]
        rintro rfl; exact hb ht
    obtain ⟨t0, ht0, rfl⟩ := hstart
    have hget : ∃ T, H.body.get t0 = some T := by
      obtain ⟨t1, T, h1, h2⟩ := S.saneH.start
      rw [ht0] at h1; cases h1
      exact ⟨T, h2⟩
    obtain ⟨T0, hT0⟩ := hget
    have hne : inOf b t0 ≠ secondId b ∧ F.body.get (inOf b t0) = none := by
      unfold inOf
      split
      · exact ⟨firstId_ne_secondId b, S.freshF.2⟩
      · exact (S.H_ne hT0).2
    rcases (edge_iff S Sh).1 hx with ⟨y, z, _, e, hz⟩ | ⟨_, e⟩ | ⟨X, hX, hv⟩ | ⟨_, e⟩
    · have := in_inj S ⟨T0, hT0⟩ (host_block S hz).2 e
      subst this
      exact hH.entry t0 y ht0 hz
    · obtain ⟨T, hT⟩ := S.start_get
      rw [e, hT] at hne; cases hne.2
    · obtain ⟨Y, hY⟩ := S.saneF.coherent.targets x X hX _ hv
      rw [hne.2] at hY; cases hY
    · exact hne.1 e
  · intro x X' hX' hp
    rcases Site.kinds Sh hX' with ⟨rfl, rfl⟩ | ⟨rfl, rfl⟩ | ⟨X, hX, rfl⟩ | ⟨X, hxb, hX, rfl⟩
    · rw [S.second_phis] at hp
      have hp' : phisOf F call ≠ [] := by intro h0; rw [h0] at hp; exact hp rfl
      have h2 : 2 ≤ F.body.returns.length := by
        have hl : (retsOf F call).length = F.body.returns.length := by simp [retsOf]
        rw [← hl]
        unfold phisOf at hp'
        split at hp'
        · exact absurd rfl hp'
        · exact absurd rfl hp'
        · next rets h1 h2 =>
          rcases hr : retsOf F call with _ | ⟨a, _ | ⟨c, l⟩⟩
          · exact absurd hr h1
          · exact absurd hr (h2 a)
          · simp
      have hnd := S.exits.once.2
      rcases hr : F.body.returns with _ | ⟨p, _ | ⟨q, l⟩⟩
      · rw [hr] at h2; simp at h2
      · rw [hr] at h2; simp at h2
      · rw [hr] at hnd
        have hpq : p ≠ q := by
          rintro rfl
          simp at hnd
        exact ⟨p, q, hpq, (edge_iff S Sh).2 (Or.inr (Or.inr (Or.inr ⟨by rw [hr]; simp, rfl⟩))),
          (edge_iff S Sh).2 (Or.inr (Or.inr (Or.inr ⟨by rw [hr]; simp, rfl⟩)))⟩
    · rw [S.first_phis] at hp
      obtain ⟨p, q, hpq, h1, h2⟩ := hH.joins b blk S.block (by intro h0; rw [h0] at hp; exact hp rfl)
      refine ⟨outOf b p, outOf b q, fun e => hpq (out_inj S (host_block S h1).1 (host_block S h2).1 e), ?_, ?_⟩
      · exact (edge_iff S Sh).2 (Or.inl ⟨p, b, rfl, by simp [inOf], h1⟩)
      · exact (edge_iff S Sh).2 (Or.inl ⟨q, b, rfl, by simp [inOf], h2⟩)
    · rw [S.callee_phis hX] at hp
      obtain ⟨p, q, hpq, h1, h2⟩ := hF.joins x X hX (by intro h0; rw [h0] at hp; exact hp rfl)
      exact ⟨p, q, hpq, (edge_iff S Sh).2 (Or.inr (Or.inr (Or.inl (mem_succ.1 h1)))), (edge_iff S Sh).2 (Or.inr (Or.inr (Or.inl (mem_succ.1 h2))))⟩
    · have hp' : phis X ≠ [] := by
        intro h0
        apply hp
        rw [phis_rename, show phis (fixOther b blk x X) = phis X from rfl, h0]; rfl
      obtain ⟨p, q, hpq, h1, h2⟩ := hH.joins x X hX hp'
      refine ⟨outOf b p, outOf b q, fun e => hpq (out_inj S (host_block S h1).1 (host_block S h2).1 e), ?_, ?_⟩
      · exact (edge_iff S Sh).2 (Or.inl ⟨p, x, rfl, by simp [inOf, hxb], h1⟩)
      · exact (edge_iff S Sh).2 (Or.inl ⟨q, x, rfl, by simp [inOf, hxb], h2⟩)
  · intro a w ht hw
    rcases run_cases S Sh ht with hi | hr
    · have ea : backOf F b a = b ∧ ¬ a = secondId b := by
        obtain ⟨m, hm, _⟩ := Relation.TransGen.head'_iff.1 hi
        exact ⟨(back_inner S hm.1).1, fun e => inner_of_second S (e ▸ hm.1)⟩
      have ew : backOf F b w = b := by
        obtain ⟨m, _, hm⟩ := Relation.TransGen.tail'_iff.1 hi
        exact (back_inner S hm.1).2
      rcases (edge_iff S Sh).1 hw with ⟨x, y, rfl, rfl, hy⟩ | hc
      · rw [back_in S (host_block S hy).2] at ea
        rw [back_out S (host_block S hy).1] at ew
        rw [ea.1, ew] at hy
        obtain ⟨X, hX, hy⟩ := mem_succ.1 hy
        rw [S.block] at hX
        cases hX
        exact S.self hy
      · have haF : ∃ X, F.body.get a = some X := by
          rcases hc with ⟨_, rfl⟩ | ⟨X, hX, hv⟩ | ⟨_, e⟩
          · exact S.start_get
          · exact S.saneF.coherent.targets w X hX a hv
          · exact absurd e ea.2
        rcases inner_run S Sh haF hi with h1 | h1
        · rcases hc with ⟨rfl, _⟩ | ⟨X, hX, hv⟩ | ⟨_, e⟩
          · obtain ⟨m, _, hm⟩ := Relation.TransGen.tail'_iff.1 h1
            obtain ⟨X, hX, hv⟩ := mem_succ.1 ((hm.1 _).2 rfl)
            obtain ⟨Y, hY⟩ := S.saneF.coherent.targets m X hX _ hv
            exact (S.F_ne hY).1 rfl
          · exact hF.loops a w h1 (mem_succ.2 ⟨X, hX, hv⟩)
          · exact ea.2 e
        · rw [h1] at hc
          exact inner_of_second S hc
    · rcases (edge_iff S Sh).1 hw with ⟨x, y, rfl, rfl, hy⟩ | hc
      · rw [back_in S (host_block S hy).2, back_out S (host_block S hy).1] at hr
        exact hH.loops y x hr hy
      · obtain ⟨e1, e2⟩ := back_inner S hc
        rw [e1, e2] at hr
        cases hr with
        | single hs =>
          obtain ⟨X, hX, hy⟩ := mem_succ.1 ((hs.1 b).2 rfl)
          rw [S.block] at hX
          cases hX
          exact S.self hy
        | tail h1 h2 => exact hH.loops b _ h1 ((h2.1 b).2 rfl)

end

end Grey.Prep
