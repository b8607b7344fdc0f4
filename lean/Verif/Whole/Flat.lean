/-
The assembly of the program that the lowering produces can be written.
-/
import Verif.Whole.Emit
namespace Grey.Whole
open List Grey.Cfg Grey.Inline Grey.Lower Grey.Sfs Grey.Program Grey.SymExec

section
variable {V σ : Type} {names : List String} {R : Option String → Option String} {f2t : List (String × Nat)} {T : TagDict} {O H O' : Obj}
  {dec : String → String × Option (List String)} {I : Interp V σ} {main : String} {A : Option String → Analysis} {arity : String → Nat}
  {val : Nat → V}

theorem upper_halt {o : String} (h : o ∈ Lower.haltOps) : o.map Char.toUpper ∈ Program.haltOps := by
  simp only [Lower.haltOps, mem_cons, not_mem_nil, or_false] at h
  rcases h with rfl | rfl | rfl | rfl | rfl <;> decide +kernel

/-- The kinds of the blocks say how they end. -/
theorem end_ok (hv : Inv names R f2t O (fun _ _ => False) H O' T) (hr : Ready names R T H O' dec I main)
    (hF : ∀ c C, H.comp c = some C → FineComp names C) (he : Emittable dec I arity names O) {f : String} {F : Fn}
    (h : (toProg names dec main A O').fns f = some F) : ∀ B ∈ F.graph.blocks, EndOk (toProg names dec main A O') arity F B := by
  obtain ⟨comp, C, C', rfl, hC, hC', hd, rfl⟩ := prog_fn hr h
  have hfine := hF comp C hC
  intro B hB
  obtain ⟨X, D, s, body, e, hX, hD, hBe, hview, hs, hins, hsp, hph⟩ := prog_block (A := A) hr hC hd hB
  have hex := view_exit (A := A) (F := toFn names dec comp.isNone (A comp) C') (B := B) hr (hr.parts.blocks comp C hC _ X hX) hview hsp (by rw [hBe]; rfl)
  unfold EndOk
  rw [hex, hsp]
  have h1 : B.jumpType = X.jumpType := by rw [hBe]; rfl
  have h2 : B.jumpTo = X.jumpTo := by rw [hBe]; rfl
  have h3 : B.fallsTo = X.fallsTo := by rw [hBe]; rfl
  rw [h1, h2, h3]
  have two : X.jumpType ∈ ["terminal", "mainExit"] → X.jumpType = "terminal" ∨ X.jumpType = "mainExit" := by simp
  cases hview with
  | stop hty hj hf hc hq =>
    refine ⟨hj, hf, ?_, he.stop⟩
    rcases two hty with h | h
    · rcases hfine.1.terminal _ X hX h with h' | ⟨i, hi, hop⟩
      · exact h'.1.elim
      · exact absurd hop (hq i hi)
    · exact h
  | halt l i hty hj hf hc hl hi =>
    have hlast : X.instrs.getLast? = some i := by rw [hl]; simp
    have hdec : dec i.op = (i.op, none) := hr.known i.op (mem_append_left _ (mem_append_right _ hi))
    have hname : (toIns dec i).name = i.op.map Char.toUpper := by
      unfold Ins.name
      show (dec i.op).1.map Char.toUpper = _
      rw [hdec]
    refine ⟨hj, hf, ?_, ?_, ?_, ?_⟩
    · rcases two hty with h | h
      · exact h
      · exact absurd (mem_append_left _ hi) (hfine.1.mainExit _ X hX h i hlast)
    · show (toIns dec i).name ∈ _
      rw [hname]
      exact upper_halt hi
    · show (dec i.op).2 = none
      rw [hdec]
    · show i.ins.length = arity (toIns dec i).name
      rw [hname]
      obtain ⟨C0, x0, X0, g1, g2, g3⟩ := hv.source comp C _ X i hC hX
        (mem_filter.2 ⟨by rw [hl]; simp, by rw [not_phi rfl (by rintro h; rw [h] at hi; simp [Lower.haltOps] at hi)]; rfl⟩)
      exact (he.halts comp C0 x0 X0 i g1 g2 g3 hi).2
  | jump y t hty hj hf ht hc =>
    refine ⟨hty, hf, ?_⟩
    show (dec "JUMP").2 = none
    rw [hr.known "JUMP" (by simp)]
  | branch y z c t hty hj hf hcond ht hc =>
    refine ⟨hty, by rw [hf]; rfl, ?_⟩
    show (dec "JUMPI").2 = none
    rw [hr.known "JUMPI" (by simp)]
  | ret o l i hty hj hf hl hi ho hc => exact ⟨hty, hj, hf⟩
  | call l i n ft rt ts hts hty hl hi hc hj hf hrt hft => exact ⟨hj, Or.inl ⟨Or.inl hty, by rw [hf]; rfl⟩⟩
  | tail l i ft hty hl hi hc hj hf hft =>
    refine ⟨hj, Or.inr ⟨?_, hf⟩⟩
    rcases two hty with h | h
    · exact h
    · exact absurd (mem_append_right _ hi) (hfine.1.mainExit _ X hX h i (by rw [hl]; simp))

/-- The instructions can be written. -/
theorem writable (hv : Inv names R f2t O (fun _ _ => False) H O' T) (hr : Ready names R T H O' dec I main)
    (hF : ∀ c C, H.comp c = some C → FineComp names C) (he : Emittable dec I arity names O) {f : String} {F : Fn}
    (h : (toProg names dec main A O').fns f = some F) : ∀ B ∈ F.graph.blocks, ∀ i ∈ F.instrs B.id, Writable I arity i := by
  obtain ⟨comp, C, C', rfl, hC, hC', hd, rfl⟩ := prog_fn hr h
  intro B hB i hi
  obtain ⟨X, D, s, body, e, hX, hD, hBe, hview, hs, hins, hsp, hph⟩ := prog_block (A := A) hr hC hd hB
  rw [hins] at hi
  obtain ⟨j, hj, rfl⟩ := mem_map.1 hi
  obtain ⟨pre, own, post, rfl, hsub, hnd, hown⟩ := view_body (hr.parts.blocks comp C hC _ X hX) hview (tags_differ hv hF hC hX)
  rcases mem_tagged hj with ⟨t, rfl⟩ | hj
  · exact .tag t (dec_pushTag hr t) rfl rfl
  · obtain ⟨C0, x0, X0, g1, g2, g3⟩ := hv.source comp C _ X j hC hX (hsub.subset hj)
    exact he.other comp C0 x0 X0 j g1 g2 g3 (hown j hj)

/-- No block falls through. -/
theorem no_fall (hr : Ready names R T H O' dec I main) {f : String} {F : Fn} (h : (toProg names dec main A O').fns f = some F) :
    ∀ B ∈ F.graph.blocks, (toProg names dec main A O').exit F B ≠ .fall := by
  obtain ⟨comp, C, C', rfl, hC, hC', hd, rfl⟩ := prog_fn hr h
  intro B hB
  obtain ⟨X, D, s, body, e, hX, hD, hBe, hview, hs, hins, hsp, hph⟩ := prog_block (A := A) hr hC hd hB
  rw [view_exit (A := A) (F := toFn names dec comp.isNone (A comp) C') (B := B) hr (hr.parts.blocks comp C hC _ X hX) hview hsp (by rw [hBe]; rfl)]
  cases hview <;> simp

/-- The tags belong to the blocks. -/
theorem tags_ok (hv : Inv names R f2t O (fun _ _ => False) H O' T) (hr : Ready names R T H O' dec I main) (hn : names.Nodup) (hval : TagMeaning I val) :
    TagsOk (toProg names dec main A O') I (destOf main H T val) names (tagOf T) := by
  refine ⟨?_, hn, ?_, ?_⟩
  · intro g
    constructor
    · intro hg
      obtain ⟨G, hG⟩ := (hr.parts.fns g).1 hg
      obtain ⟨G', hG', _⟩ := hr.deco.some (some g) G hG
      refine ⟨?_, ?_⟩
      · rintro rfl
        exact hr.main (mem_append_left _ hg)
      · have hp : (toProg names dec main A O').fns g = _ := prog_comp (A := A) hr (comp := some g) hG hG'
        rw [hp]; rfl
    · rintro ⟨h1, h2⟩
      obtain ⟨F, hF⟩ := Option.isSome_iff_exists.1 h2
      obtain ⟨comp, C, C', rfl, hC, -⟩ := prog_fn hr hF
      cases comp with
      | none => exact absurd rfl h1
      | some g => exact (hr.parts.fns g).2 ⟨C, hC⟩
  · intro g hg h
    refine hr.parts.names g hg ?_
    simp only [mem_cons, not_mem_nil, or_false] at h
    rcases h with rfl | rfl | rfl <;> simp
  · intro v f b hvb
    obtain ⟨comp, C, X, t, hC, hX, ht, hval', rfl⟩ := dest_some hvb
    obtain ⟨C', hC', hd⟩ := hr.deco.some comp C hC
    obtain ⟨D, hD, _⟩ := hd.some b X hX
    refine ⟨_, prog_comp hr hC hC', ⟨_, mem_map.2 ⟨_, get_mem hD, rfl⟩, get_id (b := { X with instrs := D }) hD⟩, t, ht, ?_⟩
    intro w
    rw [hval.push, ← hval']

/-- Different blocks have different tags. -/
theorem tags_unique (hv : Inv names R f2t O (fun _ _ => False) H O' T) (hr : Ready names R T H O' dec I main) (hval : TagMeaning I val) {w : σ} :
    TagsUnique (toProg names dec main A O') I (tagOf T) := by
  refine ⟨?_, ?_⟩
  · intro f F g G B B2 t hF hG hB hB2 ht ht2
    obtain ⟨c, C, C', rfl, hC, hC', hd, rfl⟩ := prog_fn hr hF
    obtain ⟨c2, K, K', rfl, hK, hK', hd2, rfl⟩ := prog_fn hr hG
    have hid := tags_injective hv.tags ht ht2
    obtain ⟨X, D, s, body, e, hX, hD, hBe, -⟩ := prog_block (A := A) hr hC hd hB
    obtain ⟨Y, E, s', body', e', hY, hE, hBe2, -⟩ := prog_block (A := A) hr hK hd2 hB2
    rw [← hid] at hY hE
    have := (hv.parts.blockNames c c2 C K hC hK B.id B.id X Y hX hY [] (by unfold Halves; simp) (by simp)).2
    subst this
    refine ⟨rfl, ?_⟩
    rw [hC'] at hK'
    cases hK'
    rw [hE] at hD
    rw [hBe, hBe2, Option.some.inj hD]
  · intro b b' t t' v ht ht' h1 h2
    have e1 := h1 w
    have e2 := h2 w
    rw [hval.push] at e1 e2
    refine hval.inj t t' ?_
    rw [show val t = v by simpa using e1, show val t' = v by simpa using e2]

end
end Grey.Whole
