/-
Objects stay well-formed when the only call of a function is inlined, and no calls are duplicated.
-/
import Verif.Inline.OkAfter
namespace Grey.Inline
open List Grey.Cfg

theorem halves_nil : Halves [] := by intro c hc; cases hc

section
variable {O O' : Obj} {h : Option String} {f : String} {H F : Component} {s b : String} {k : Nat} {blk : Block} {call : Instr}
  {G' : BlockList} (S : Site O h f H F s b k blk call) (Sh : Shape F call s b k blk H.body G') (A : After O O' h f H G')

namespace Site
include S A

/-- The components after inlining. -/
theorem comp_cases {c : Option String} {C : Component} (hC : O'.comp c = some C) :
    (c = h ∧ C = ⟨H.args, G'⟩) ∨ (c ≠ h ∧ c ≠ some f ∧ O.comp c = some C) := by
  by_cases hc : c = h
  · subst hc
    rw [A.host] at hC
    exact Or.inl ⟨rfl, (Option.some.inj hC).symm⟩
  · have hf : c ≠ some f := by
      rintro rfl
      have := A.gone
      have h2 : O'.fns f = some C := hC
      rw [this] at h2; cases h2
    exact Or.inr ⟨hc, hf, by rw [← A.other c hc hf]; exact hC⟩

/-- The functions after inlining. -/
theorem fn_before {g : String} {C : Component} (hC : O'.fns g = some C) : g ≠ f ∧ ∃ D, O.fns g = some D := by
  rcases S.comp_cases A (c := some g) hC with ⟨e, _⟩ | ⟨_, e, h2⟩
  · refine ⟨?_, ?_⟩
    · rintro rfl; exact S.other e.symm
    · have := S.comp
      rw [← e] at this
      exact ⟨H, this⟩
  · exact ⟨fun e2 => e (by rw [e2]), C, h2⟩

omit A in
theorem fn_after (A : After O O' h f H G') {g : String} {C : Component} (hC : O.fns g = some C) (hg : g ≠ f) : ∃ D, O'.fns g = some D := by
  by_cases e : h = some g
  · subst e; exact ⟨_, A.host⟩
  · exact ⟨C, by
      have := A.other (some g) (Ne.symm e) (by simpa using hg)
      exact this.trans hC⟩

include Sh

/-- Where a block after inlining comes from. -/
theorem block_origin {c : Option String} {C : Component} {x : String} {X : Block} (hC : O'.comp c = some C) (hX : C.body.get x = some X) :
    ∃ c0 C0 x0 X0 w, O.comp c0 = some C0 ∧ C0.body.get x0 = some X0 ∧ Halves w ∧ x.toList = x0.toList ++ w ∧
      c = (if c0 = some f then h else c0) ∧ w.length = if c0 = h ∧ x0 = b then 1 else 0 := by
  rcases S.comp_cases A hC with ⟨rfl, rfl⟩ | ⟨hc, hf, hC⟩
  · have hX' : G'.get x = some X := hX
    rcases kinds Sh hX' with ⟨rfl, _⟩ | ⟨rfl, _⟩ | ⟨Y, hY, _⟩ | ⟨Y, hxb, hY, _⟩
    · exact ⟨c, H, b, blk, ['s'], S.comp, S.block, halves_s, toList_second b, by rw [if_neg S.other], by simp⟩
    · exact ⟨c, H, b, blk, ['f'], S.comp, S.block, halves_f, toList_first b, by rw [if_neg S.other], by simp⟩
    · refine ⟨some f, F, x, Y, [], S.fn, hY, halves_nil, by simp, by simp, ?_⟩
      rw [if_neg (fun e => S.other e.1.symm)]; rfl
    · exact ⟨c, H, x, Y, [], S.comp, hY, halves_nil, by simp, by rw [if_neg S.other], by simp [hxb]⟩
  · exact ⟨c, C, x, X, [], hC, hX, halves_nil, by simp, by rw [if_neg hf], by simp [hc]⟩

/-- Where the instructions after inlining come from: an instruction with the same operation and as many arguments and results. -/
theorem instr_origin {c : Option String} {C : Component} {x : String} {X : Block} {i : Instr} (hC : O'.comp c = some C)
    (hX : C.body.get x = some X) (hi : i ∈ X.instrs) (hp : isPhi i = false) :
    ∃ c0 C0 x0 X0 i0, O.comp c0 = some C0 ∧ C0.body.get x0 = some X0 ∧ i0 ∈ X0.instrs ∧ i0.op = i.op ∧ i0.ins.length = i.ins.length ∧
      i0.outs.length = i.outs.length := by
  rcases S.comp_cases A hC with ⟨rfl, rfl⟩ | ⟨hc, hf, hC⟩
  · rcases S.instr_source Sh hX hi with ⟨y, Y, j, hY, hj, _, rfl⟩ | ⟨Y, j, hY, hj, rfl, _⟩ | ⟨_, hq⟩
    · exact ⟨c, H, y, Y, j, S.comp, hY, hj, rfl, by simp [renameInstr], by simp [renameInstr]⟩
    · exact ⟨some f, F, x, Y, j, S.fn, hY, hj, rfl, by simp [renameInstr], by simp [renameInstr]⟩
    · rw [S.phisOf_phi hq] at hp; cases hp
  · exact ⟨c, C, x, X, i, hC, hX, hi, rfl, rfl, rfl⟩

omit A in
/-- The number of results stays the same. -/
theorem returned_origin {x : String} {X : Block} {r : Instr} (okH : CompOk H) (hX : G'.get x = some X) (hj : X.jumpType = "FunctionReturn")
    (hr : X.instrs.getLast? = some r) : ∃ y Y r0, H.body.get y = some Y ∧ Y.jumpType = "FunctionReturn" ∧ Y.instrs.getLast? = some r0 ∧
      r0.ins.length = r.ins.length := by
  rcases kinds Sh hX with ⟨rfl, rfl⟩ | ⟨rfl, rfl⟩ | ⟨Y, hY, rfl⟩ | ⟨Y, hxb, hY, rfl⟩
  · obtain ⟨h1, h2, i, h3, h4⟩ := okH.returns b blk S.block hj
    refine ⟨b, blk, i, S.block, hj, h3, ?_⟩
    have hr' : ((phisOf F call ++ blk.instrs.drop (k + 1)).map (renameInstr (outMap F call))).getLast? = some r := hr
    have h3' := h3
    rw [S.split, getLast?_append] at h3'
    have hne : blk.instrs.drop (k + 1) ≠ [] := by
      intro h0
      rw [h0] at h3'
      simp only [getLast?_singleton, Option.some_or, Option.some.injEq] at h3'
      rw [← h3', S.op] at h4
      have := S.noReturn
      rw [← h4, S.fn] at this
      cases this
    rw [getLast?_map, getLast?_append] at hr'
    rw [getLast?_cons, Option.some_or] at h3'
    cases hd : (blk.instrs.drop (k + 1)).getLast? with
    | none => rw [getLast?_eq_none_iff] at hd; exact absurd hd hne
    | some j =>
      rw [hd] at h3' hr'
      simp only [Option.getD_some, Option.some.injEq] at h3'
      simp only [Option.some_or, Option.map_some, Option.some.injEq] at hr'
      rw [← hr', ← h3']
      simp [renameInstr]
  · have : "sub_block" = "FunctionReturn" := hj
    exact absurd this (by decide)
  · have hj' : (if Y.jumpType = "FunctionReturn" then "unconditional" else Y.jumpType) = "FunctionReturn" := hj
    split at hj'
    · exact absurd hj' (by decide)
    · contradiction
  · have hr' : (Y.instrs.map (renameInstr (outMap F call))).getLast? = some r := hr
    rw [getLast?_map] at hr'
    obtain ⟨r0, h0, rfl⟩ := Option.map_eq_some_iff.1 hr'
    exact ⟨x, Y, r0, hY, hj, h0, by simp [renameInstr]⟩

theorem obj_after (ok : ObjOk O) (hG : inlineCall k b f F H.body = some G') : ObjOk O' where
  comps := by
    intro c C hC
    rcases S.comp_cases A hC with ⟨rfl, rfl⟩ | ⟨_, _, hC⟩
    · exact S.comp_after Sh (ok.comps c H S.comp) (ok.comps (some f) F S.fn) (S.exits_after (ok.comps c H S.comp).exits hG)
    · exact ok.comps c C hC
  vars := by
    have key : ∀ d D, O.comp d = some D → d ≠ h → d ≠ some f → ∀ x, isConst x = false → x ∈ H.args ++ G'.names → x ∉ D.args ++ D.body.names := by
      intro d D hD hd hdf x hc hx
      rcases S.names_after Sh hx hc with h1 | h1
      · exact ok.vars h d H D S.comp hD (Ne.symm hd) x h1 hc
      · exact ok.vars (some f) d F D S.fn hD (Ne.symm hdf) x h1 hc
    intro c d C D hC hD hcd x hx hc hxd
    rcases S.comp_cases A hC with ⟨rfl, rfl⟩ | ⟨h1, h2, hC⟩
    · rcases S.comp_cases A hD with ⟨rfl, rfl⟩ | ⟨h3, h4, hD⟩
      · exact hcd rfl
      · exact key d D hD h3 h4 x hc hx hxd
    · rcases S.comp_cases A hD with ⟨rfl, rfl⟩ | ⟨h3, h4, hD⟩
      · exact key c C hC h1 h2 x hc hxd hx
      · exact ok.vars c d C D hC hD hcd x hx hc hxd
  names := by
    intro c d C D hC hD x y X Y hX hY w hw e
    obtain ⟨c0, C0, x0, X0, w0, hC0, hX0, hw0, ex, ec, lx⟩ := S.block_origin Sh A hC hX
    obtain ⟨d0, D0, y0, Y0, w1, hD0, hY0, hw1, ey, ed, ly⟩ := S.block_origin Sh A hD hY
    rw [ex, ey, append_assoc] at e
    have key : x0 = y0 ∧ c0 = d0 := by
      rcases append_eq_append_iff.1 e with ⟨u, h1, h2⟩ | ⟨u, h1, h2⟩
      · have hu : Halves u := fun a ha => hw1 a (by rw [h2]; exact mem_append.2 (Or.inl ha))
        obtain ⟨h3, h4⟩ := ok.names d0 c0 D0 C0 hD0 hC0 y0 x0 Y0 X0 hY0 hX0 u hu h1
        rw [h3, append_nil] at h1
        exact ⟨String.toList_injective h1, h4.symm⟩
      · have hu : Halves u := fun a ha => by
          have : a ∈ w0 ++ w := by rw [h2]; exact mem_append.2 (Or.inl ha)
          rcases mem_append.1 this with h5 | h5
          · exact hw0 a h5
          · exact hw a h5
        obtain ⟨h3, h4⟩ := ok.names c0 d0 C0 D0 hC0 hD0 x0 y0 X0 Y0 hX0 hY0 u hu h1
        rw [h3, append_nil] at h1
        exact ⟨String.toList_injective h1.symm, h4⟩
    obtain ⟨rfl, rfl⟩ := key
    refine ⟨?_, by rw [ec, ed]⟩
    have h1 := append_cancel_left e
    have h2 := congrArg length h1
    rw [length_append, lx, ly] at h2
    exact length_eq_zero_iff.1 (by omega)
  calls := by
    intro c C x X i E hC hX hi hE
    obtain ⟨hne, E0, hE0⟩ := S.fn_before A hE
    have hp : isPhi i = false := by
      unfold isPhi
      rw [beq_eq_false_iff_ne]
      intro e
      rw [e, ok.noPhi] at hE0; cases hE0
    obtain ⟨c0, C0, x0, X0, i0, hC0, hX0, hi0, e1, e2, e3⟩ := S.instr_origin Sh A hC hX hi hp
    obtain ⟨f1, f2⟩ := ok.calls c0 C0 x0 X0 i0 E0 hC0 hX0 hi0 (by rw [e1]; exact hE0)
    rw [e2] at f1
    rw [e3] at f2
    rcases S.comp_cases A (c := some i.op) hE with ⟨h1, rfl⟩ | ⟨h1, h2, hE1⟩
    · have h2 := S.comp
      rw [← h1] at h2
      have h3 : O.fns i.op = some H := h2
      rw [hE0] at h3
      obtain rfl := Option.some.inj h3
      refine ⟨f1, ?_⟩
      intro y Y r hY hj hr
      obtain ⟨z, Z, r0, hZ, hZj, hr0, el⟩ := S.returned_origin Sh (ok.comps h E0 S.comp) hY hj hr
      rw [← el]
      exact f2 z Z r0 hZ hZj hr0
    · have h3 : O.fns i.op = some E := hE1
      rw [hE0] at h3
      obtain rfl := Option.some.inj h3
      exact ⟨f1, f2⟩
  noReturn := by
    cases hc : O'.fns "functionReturn" with
    | none => rfl
    | some C =>
      obtain ⟨_, D, hD⟩ := S.fn_before A hc
      rw [ok.noReturn] at hD; cases hD
  noPhi := by
    cases hc : O'.fns "PhiFunction" with
    | none => rfl
    | some C =>
      obtain ⟨_, D, hD⟩ := S.fn_before A hc
      rw [ok.noPhi] at hD; cases hD

end Site
end

/-! ### Calls -/

/-- Where an instruction is after inlining the call at `k` of block `b` of `h`, with `m` new phi functions. -/
def moved (h : Option String) (f b : String) (k m : Nat) (p : Option String × String × Nat) : Option String × String × Nat :=
  if p.1 = some f then (h, p.2) else
  if p.1 = h ∧ p.2.1 = b then if p.2.2 < k then (h, firstId b, p.2.2) else (h, secondId b, m + (p.2.2 - (k + 1)))
  else p

section
variable {O O' : Obj} {h : Option String} {f : String} {H F : Component} {s b : String} {k : Nat} {blk : Block} {call : Instr}
  {G' : BlockList} (S : Site O h f H F s b k blk call) (Sh : Shape F call s b k blk H.body G') (A : After O O' h f H G')

namespace Site
include S Sh A

/-- The calls after inlining are the moved calls from before. -/
theorem calls_back {g : String} (hphi : g ≠ "PhiFunction") {c : Option String} {x : String} {j : Nat} (hc : Calls O' g c x j) :
    ∃ p, Calls O g p.1 p.2.1 p.2.2 ∧ (c, x, j) = moved h f b k (phisOf F call).length p := by
  obtain ⟨C, X, i, hC, hX, hj, ho⟩ := hc
  have hnp : isPhi i = false := by
    unfold isPhi; rw [beq_eq_false_iff_ne, ho]; exact hphi
  rcases S.comp_cases A hC with ⟨rfl, rfl⟩ | ⟨h1, h2, hC⟩
  · have hX' : G'.get x = some X := hX
    rcases kinds Sh hX' with ⟨rfl, rfl⟩ | ⟨rfl, rfl⟩ | ⟨Y, hY, rfl⟩ | ⟨Y, hxb, hY, rfl⟩
    · have hj' : ((phisOf F call ++ blk.instrs.drop (k + 1)).map (renameInstr (outMap F call)))[j]? = some i := hj
      rw [getElem?_map] at hj'
      obtain ⟨i0, hi0, rfl⟩ := Option.map_eq_some_iff.1 hj'
      have hge : (phisOf F call).length ≤ j := by
        rcases Nat.lt_or_ge j (phisOf F call).length with hlt | hge
        · rw [getElem?_append_left hlt] at hi0
          have h1 := S.phisOf_phi (mem_of_getElem? hi0)
          rw [isPhi_rename, h1] at hnp
          cases hnp
        · exact hge
      rw [getElem?_append_right hge, getElem?_drop] at hi0
      refine ⟨(c, b, k + 1 + (j - (phisOf F call).length)), ⟨H, blk, i0, S.comp, S.block, hi0, ho⟩, ?_⟩
      simp only [moved, S.other, if_false, and_self, if_true]
      rw [if_neg (by omega)]
      congr 2
      omega
    · have hj' : ((blk.instrs.take k).map (renameInstr (outMap F call)))[j]? = some i := hj
      rw [getElem?_map] at hj'
      obtain ⟨i0, hi0, rfl⟩ := Option.map_eq_some_iff.1 hj'
      have hlt := (List.getElem?_eq_some_iff.1 hi0).1
      rw [length_take] at hlt
      rw [getElem?_take_of_lt (by omega)] at hi0
      refine ⟨(c, b, j), ⟨H, blk, i0, S.comp, S.block, hi0, ho⟩, ?_⟩
      simp only [moved, S.other, if_false, and_self, if_true]
      rw [if_pos (by omega)]
    · rw [S.callee_instrs, getElem?_map] at hj
      obtain ⟨i0, hi0, rfl⟩ := Option.map_eq_some_iff.1 hj
      refine ⟨(some f, x, j), ⟨F, Y, i0, S.fn, hY, ?_, ho⟩, by simp [moved]⟩
      show Y.instrs[j]? = some i0
      split at hi0
      · have hlt := (List.getElem?_eq_some_iff.1 hi0).1
        rw [length_dropLast] at hlt
        rw [dropLast_eq_take, getElem?_take_of_lt (by omega)] at hi0
        exact hi0
      · exact hi0
    · have hj' : (Y.instrs.map (renameInstr (outMap F call)))[j]? = some i := hj
      rw [getElem?_map] at hj'
      obtain ⟨i0, hi0, rfl⟩ := Option.map_eq_some_iff.1 hj'
      refine ⟨(c, x, j), ⟨H, Y, i0, S.comp, hY, hi0, ho⟩, ?_⟩
      simp [moved, S.other, hxb]
  · refine ⟨(c, x, j), ⟨C, X, i, hC, hX, hj, ho⟩, ?_⟩
    simp [moved, h1, h2]

end Site
end

/-- There is at most one call of `g`. -/
def AtMostOnce (O : Obj) (g : String) : Prop := ∀ c x j c' x' j', Calls O g c x j → Calls O g c' x' j' → c = c' ∧ x = x' ∧ j = j'

section
variable {O O' : Obj} {h : Option String} {f : String} {H F : Component} {s b : String} {k : Nat} {blk : Block} {call : Instr}
  {G' : BlockList}

theorem Site.once_after_inlining (S : Site O h f H F s b k blk call) (Sh : Shape F call s b k blk H.body G') (A : After O O' h f H G')
    {g : String} (hphi : g ≠ "PhiFunction") (ho : AtMostOnce O g) : AtMostOnce O' g := by
  intro c x j c' x' j' h1 h2
  obtain ⟨p, hp, e⟩ := S.calls_back Sh A hphi h1
  obtain ⟨q, hq, e'⟩ := S.calls_back Sh A hphi h2
  obtain ⟨a1, a2, a3⟩ := ho _ _ _ _ _ _ hp hq
  have : p = q := Prod.ext a1 (Prod.ext a2 a3)
  rw [this, ← e'] at e
  simp only [Prod.mk.injEq] at e
  exact e
end

end Grey.Inline
