/-
All splits: the object stays decorated, and at the end no call is left in the middle of a block.
-/
import Verif.Lower.Step
namespace Grey.Lower
open List Grey.Cfg Grey.Inline Grey.Prep

theorem set_same {O : Obj} {h : Option String} {H : Component} (hH : O.comp h = some H) : O.set h H.body = O := by
  cases h with
  | none =>
    have : H = ⟨[], O.main⟩ := by simpa [Obj.comp] using hH.symm
    rw [this]; rfl
  | some g =>
    unfold Obj.set
    simp only
    have : (fun x => if x = g then (O.fns x).map fun c => { c with body := H.body } else O.fns x) = O.fns := by
      funext x
      split
      · rename_i hx
        subst hx
        have hH' : O.fns x = some H := hH
        rw [hH']; rfl
      · rfl
    rw [this]

theorem set_twice (O : Obj) (h : Option String) (G G' : BlockList) : (O.set h G).set h G' = O.set h G' := by
  cases h with
  | none => rfl
  | some g =>
    unfold Obj.set
    simp only
    congr 1
    funext x
    split
    · cases O.fns x <;> rfl
    · rfl

/-- More tags. -/
def TagLe (T T' : TagDict) : Prop := ∀ x t, tagOf T x = some t → tagOf T' x = some t

theorem TagLe.refl (T : TagDict) : TagLe T T := fun _ _ h => h
theorem TagLe.trans {T T' T'' : TagDict} (h : TagLe T T') (h' : TagLe T' T'') : TagLe T T'' := fun x t e => h' x t (h x t e)
theorem tagLe_request (b : String) (T : TagDict) : TagLe T (tagFromDict b T).2 := (request_stable b T).2.2.1

theorem keys_request {b : String} {T : TagDict} {x : String} {t : Nat} (h : tagOf (tagFromDict b T).2 x = some t) : x = b ∨ tagOf T x = some t := by
  by_cases hx : x = b
  · exact Or.inl hx
  · rw [(request_stable b T).2.2.2 x hx] at h
    exact Or.inr h

theorem fnTag_mono {H : Obj} {T T' : TagDict} (h : TagLe T T') {f : String} {t : Nat} (hf : FnTag H T f t) : FnTag H T' f t := by
  obtain ⟨F, s, h1, h2, h3⟩ := hf
  exact ⟨F, s, h1, h2, h s t h3⟩

section
variable {names : List String} {R : Option String → Option String} {f2t : List (String × Nat)} {O0 : Obj}

theorem deco_mono {H : Obj} {T T' : TagDict} (h : TagLe T T') {ret : Option String} {raw : Prop} {X : Block} {D : List Instr}
    (hd : Deco names H T ret raw X D) : Deco names H T' ret raw X D :=
  deco_map id hd Iff.rfl rfl rfl rfl (by simp) (by simp) (fun y _ t ht => h y t ht) fun _ _ hf => fnTag_mono h hf

theorem decoComp_mono {H : Obj} {T T' : TagDict} (h : TagLe T T') {ret : Option String} {raw : String → Prop} {C C' : Component}
    (hd : DecoComp names H T ret raw C C') : DecoComp names H T' ret raw C C' :=
  ⟨hd.args, hd.start, hd.ids, hd.none, fun x X hX => by
    obtain ⟨D, h1, h2⟩ := hd.some x X hX
    exact ⟨D, h1, deco_mono h h2⟩⟩

/-- A tag is requested for a block of the object. -/
theorem Inv.request {raw : Option String → String → Prop} {H O' : Obj} {T : TagDict} (h : Inv names R f2t O0 raw H O' T) {n : String}
    (hn : ∃ c C X, H.comp c = some C ∧ C.body.get n = some X) : Inv names R f2t O0 raw H O' (tagFromDict n T).2 := by
  have hle := tagLe_request n T
  refine ⟨h.parts, ⟨h.deco.none, fun c C hC => ?_⟩, good_request h.tags n, ?_, fun f t hf => fnTag_mono hle (h.fnTags f t hf), h.calls, h.runs, h.source, h.rawEx, h.fine⟩
  · obtain ⟨C', h1, h2⟩ := h.deco.some c C hC
    exact ⟨C', h1, decoComp_mono hle h2⟩
  · intro x t hx
    rcases keys_request hx with rfl | hx
    · exact hn
    · exact h.keys x t hx

theorem Inv.congr {raw raw' : Option String → String → Prop} {H O' : Obj} {T : TagDict} (h : Inv names R f2t O0 raw H O' T)
    (hr : ∀ d x, raw d x ↔ raw' d x) : Inv names R f2t O0 raw' H O' T := by
  have : raw = raw' := by funext d x; exact propext (hr d x)
  rwa [← this]

theorem isCall_iff (hc : ∀ f, (f2t.lookup f).isSome ↔ f ∈ names) {i : Instr} : isCall f2t i = true ↔ i.op ∈ names := hc i.op

/-- The loop over the calls of a block. -/
theorem inv_loop {r : Option String → String → Prop} {c : Option String} : ∀ (n : Nat) {cur : String} {H O' : Obj} {T : TagDict} {C' : Component} {B' : Block},
    Inv names R f2t O0 (with1 r c cur) H O' T → ¬ r c cur → O'.comp c = some C' → C'.body.get cur = some B' → B'.instrs.length < n →
    ∃ cur' G T' H' B2, splitLoop f2t n cur C'.body T = some (cur', G, T') ∧ Inv names R f2t O0 (with1 r c cur') H' (O'.set c G) T' ∧ ¬ r c cur' ∧
      G.get cur' = some B2 ∧ ∀ i ∈ B2.instrs.dropLast, i.op ∉ names
  | 0, _, _, _, _, _, _, _, _, _, _, h => absurd h (Nat.not_lt_zero _)
  | n + 1, cur, H, O', T, C', B', hv, hr, hC', hB', hlen => by
    unfold splitLoop
    rw [hB', Option.bind_some]
    cases hk : B'.instrs.dropLast.findIdx? (isCall f2t) with
    | none =>
      refine ⟨cur, C'.body, T, H, B', rfl, ?_, hr, hB', ?_⟩
      · rw [set_same hC']; exact hv
      · intro i hi hin
        have := findIdx?_eq_none_iff.1 hk i hi
        rw [(isCall_iff hv.calls).2 hin] at this
        cases this
    | some k =>
      obtain ⟨hlt, hp, hfirst⟩ := findIdx?_eq_some_iff_getElem.1 hk
      have hlt' : k < B'.instrs.length := by rw [length_dropLast] at hlt; omega
      have hlt2 : k + 1 < B'.instrs.length := by rw [length_dropLast] at hlt; omega
      have hi : B'.instrs[k]? = some B'.instrs[k] := getElem?_eq_getElem hlt'
      rw [getElem_dropLast] at hp
      have hsome := hp
      unfold isCall at hsome
      obtain ⟨ft, hft⟩ := Option.isSome_iff_exists.1 hsome
      have hl : B'.instrs = B'.instrs.take k ++ B'.instrs[k] :: B'.instrs.drop (k + 1) := by
        rw [← drop_eq_getElem_cons hlt', take_append_drop]
      have hl' : B'.instrs.drop (k + 1) ≠ [] := by
        intro h
        have := congrArg length h
        rw [length_drop, length_nil] at this
        omega
      have hfst : ∀ j ∈ B'.instrs.take k, j.op ∉ names := by
        intro j hj hin
        obtain ⟨m, hm, rfl⟩ := mem_iff_getElem.1 hj
        rw [length_take] at hm
        have hmk : m < k := by omega
        have := hfirst m hmk
        rw [getElem_dropLast, (isCall_iff hv.calls).2 (by rwa [getElem_take] at hin)] at this
        exact this rfl
      obtain ⟨G, T', H', B2, hsc, hv', hr', hB2, hB2l⟩ := inv_split hv hr hC' hB' hl hl' hfst hft
      have htk : (B'.instrs.take k).length = k := by rw [length_take]; omega
      rw [htk] at hsc
      have hcomp : (O'.set c G).comp c = some ⟨C'.args, G⟩ := by rw [comp_set hC', if_pos rfl]
      obtain ⟨cur', G2, T2, H2, B3, h1, h2, h3, h4, h5⟩ := inv_loop n hv' hr' hcomp hB2 (by rw [hB2l, length_drop]; omega)
      refine ⟨cur', G2, T2, H2, B3, ?_, ?_, h3, h4, h5⟩
      · simp only [hi, Option.bind_some, hft, hsc]
        exact h1
      · rwa [set_twice] at h2

/-- A block is done. -/
theorem inv_done {r : Option String → String → Prop} {c : Option String} {b : String} {H O' : Obj} {T : TagDict} {C C' : Component} {B : Block}
    (hv : Inv names R f2t O0 (with1 r c b) H O' T) (hC : H.comp c = some C) (hC' : O'.comp c = some C') (hB : C.body.get b = some B) {D : List Instr}
    (hD : Deco names H T (R c) (r c b) B D) {G : BlockList} (hst : G.start = C'.body.start) (hids : G.blocks.map (·.id) = C'.body.blocks.map (·.id))
    (hget : ∀ x, G.get x = if x = b then some { B with instrs := D } else C'.body.get x) : Inv names R f2t O0 r H (O'.set c G) T := by
  have hset := comp_set hC' G
  refine ⟨hv.parts, ⟨?_, ?_⟩, hv.tags, hv.keys, hv.fnTags, hv.calls, hv.runs, hv.source, fun d x h => hv.rawEx d x (Or.inr h), hv.fine⟩
  · intro d hd
    rw [hset, if_neg]
    · exact hv.deco.none d hd
    · rintro rfl
      rw [hC] at hd
      cases hd
  · intro d E hE
    obtain ⟨E', hE', hdE⟩ := hv.deco.some d E hE
    rw [hset]
    by_cases hdc : d = c
    · subst hdc
      rw [hC] at hE
      cases hE
      rw [hC'] at hE'
      cases hE'
      refine ⟨⟨C'.args, G⟩, by rw [if_pos rfl], hdE.args, hst.trans hdE.start, ?_, ?_, ?_⟩
      · show (G.blocks.map (·.id)).Nodup
        rw [hids]; exact hdE.ids
      · intro x hx
        show G.get x = none
        rw [hget, if_neg (by rintro rfl; rw [hB] at hx; cases hx)]
        exact hdE.none x hx
      · intro x X hX
        show ∃ D, G.get x = some { X with instrs := D } ∧ _
        rw [hget]
        by_cases hxb : x = b
        · subst hxb
          rw [hB] at hX
          cases hX
          exact ⟨D, by rw [if_pos rfl], hD⟩
        · obtain ⟨D', h1, h2⟩ := hdE.some x X hX
          refine ⟨D', by rw [if_neg hxb]; exact h1, deco_map id h2 ?_ rfl rfl rfl (by simp) (by simp) (fun _ _ _ h => h) fun _ _ h => h⟩
          unfold with1
          simp [hxb]
    · refine ⟨E', by rw [if_neg hdc]; exact hE', hdE.args, hdE.start, hdE.ids, hdE.none, ?_⟩
      intro x X hX
      obtain ⟨D', h1, h2⟩ := hdE.some x X hX
      refine ⟨D', h1, deco_map id h2 ?_ rfl rfl rfl (by simp) (by simp) (fun _ _ _ h => h) fun _ _ h => h⟩
      unfold with1
      simp [hdc]

/-- A call at the end of a block. -/
theorem inv_finish {r : Option String → String → Prop} {c : Option String} {b : String} {H O' : Obj} {T : TagDict} {C' : Component} {B' : Block}
    (hv : Inv names R f2t O0 (with1 r c b) H O' T) (hr : ¬ r c b) (hC' : O'.comp c = some C') (hB' : C'.body.get b = some B')
    (hno : ∀ i ∈ B'.instrs.dropLast, i.op ∉ names) :
    ∃ G T', finishCall f2t b C'.body T = some (G, T') ∧ Inv names R f2t O0 r H (O'.set c G) T' := by
  obtain ⟨C, B, hC, hB⟩ := hv.rawEx c b (Or.inl ⟨rfl, rfl⟩)
  obtain ⟨C'', hC'', hdc⟩ := hv.deco.some c C hC
  rw [hC'] at hC''
  cases hC''
  obtain ⟨D, hD, hdeco⟩ := hdc.some b B hB
  rw [hB'] at hD
  cases hD
  simp only at hno
  have hrawT : with1 r c b c b := Or.inl ⟨rfl, rfl⟩
  -- nothing to do
  have same : Deco names H T (R c) (r c b) B D → Inv names R f2t O0 r H (O'.set c C'.body) T := by
    intro hd
    refine inv_done hv hC hC' hB hd rfl rfl ?_
    intro x
    split
    · rename_i h; rw [h]; exact hB'
    · rfl
  have skip : (∀ i, D.getLast? = some i → i.op ∉ names) → finishCall f2t b C'.body T = some (C'.body, T) := by
    intro h
    unfold finishCall
    rw [hB', Option.bind_some]
    simp only
    cases hg : D.getLast? with
    | none => rfl
    | some i =>
      have := h i hg
      cases hl : f2t.lookup i.op with
      | none => simp only [hl]
      | some t => exact absurd ((hv.calls i.op).1 (by rw [hl]; rfl)) this
  have npush : ∀ t, (pushTag t).op ∉ names := fun t h => hv.parts.names _ h (by simp [pushTag])
  have njump : "JUMP" ∉ names := fun h => hv.parts.names _ h (by simp)
  have njumpi : "JUMPI" ∉ names := fun h => hv.parts.names _ h (by simp)
  have nret : "functionReturn" ∉ names := fun h => hv.parts.names _ h (by simp)
  cases hdeco with
  | exit hty hj hf hc =>
    rcases eq_nil_or_concat' B.instrs with hnil | ⟨l, i, hl⟩
    · refine ⟨C'.body, T, skip ?_, same (.exit hty hj hf (Or.inr ?_))⟩
      · intro i hi; rw [hnil] at hi; cases hi
      · intro i hi; rw [hnil] at hi; cases hi
    · rw [hl, dropLast_concat] at hno
      by_cases hi : i.op ∈ names
      · obtain ⟨ft, hft⟩ := Option.isSome_iff_exists.1 ((hv.calls i.op).2 hi)
        have hsucc : B.succs = [] := by unfold Block.succs; rw [hj, hf]; rfl
        refine ⟨C'.body.modify b fun B => { B with instrs := afterPhis [pushTag ft] (B.instrs.dropLast ++ [tagCall ft none i]) }, T, ?_, ?_⟩
        · unfold finishCall
          rw [hB', Option.bind_some]
          have hs' : (Block.succs { B with instrs := B.instrs }) = [] := hsucc
          simp only [hl, getLast?_concat, hft]
          rw [show (Block.succs { B with instrs := l ++ [i] }) = [] from hsucc]
        · refine inv_done hv hC hC' hB (.tail l i ft hty hl hi hno hj hf (hv.fnTags _ _ hft) hr) rfl ?_ ?_
          · unfold BlockList.modify
            simp only [map_map]
            refine map_congr_left fun y _ => ?_
            show (if _ then _ else _ : Block).id = _
            split <;> rfl
          · intro x
            rw [get_modify (by intro y; rfl)]
            by_cases hx : x = b
            · rw [if_pos hx, hx, hB', Option.map_some, if_pos rfl]
              simp only [hl, dropLast_concat]
            · rw [if_neg hx]
              cases C'.body.get x <;> simp [hx]
      · refine ⟨C'.body, T, skip ?_, same (.exit hty hj hf (Or.inr ?_))⟩
        · intro j hj'
          rw [hl, getLast?_concat] at hj'
          cases hj'
          exact hi
        · intro j hj'
          rw [hl, mem_append, mem_singleton] at hj'
          rcases hj' with h | rfl
          · exact hno j h
          · exact hi
  | jump y t hty hj hf ht hc =>
    refine ⟨C'.body, T, skip ?_, same (.jump y t hty hj hf ht (Or.inr ?_))⟩
    · intro i hi
      rw [getLast?_append] at hi
      cases hi
      exact njump
    · intro i hi
      refine hno i ?_
      rw [show ∀ a b : Instr, B.instrs ++ [a, b] = (B.instrs ++ [a]) ++ [b] from fun a b => by simp, dropLast_concat]
      exact mem_append_left _ hi
  | branch y z cd t hty hj hf hcond ht hc =>
    refine ⟨C'.body, T, skip ?_, same (.branch y z cd t hty hj hf hcond ht (Or.inr ?_))⟩
    · intro i hi
      rw [getLast?_append] at hi
      cases hi
      exact njumpi
    · intro i hi
      refine hno i ?_
      rw [show ∀ a b : Instr, B.instrs ++ [a, b] = (B.instrs ++ [a]) ++ [b] from fun a b => by simp, dropLast_concat]
      exact mem_append_left _ hi
  | ret o l i hty hj hf hl hi ho hc =>
    refine ⟨C'.body, T, skip ?_, same (.ret o l i hty hj hf hl hi ho (Or.inr ?_))⟩
    · intro j hj'
      rw [getLast?_concat] at hj'
      cases hj'
      show i.op ∉ names
      rw [hi]; exact nret
    · rwa [dropLast_concat] at hno
  | sub l i n hty hl hi hj hf _ =>
    rw [hl, dropLast_concat] at hno
    obtain ⟨ft, hft⟩ := Option.isSome_iff_exists.1 ((hv.calls i.op).2 hi)
    have hsucc : B.succs = [n] := by unfold Block.succs; rw [hj, hf]; rfl
    have hv' := hv.request (n := n) (by
      obtain ⟨N, hN⟩ := (hv.parts.sane c C hC).coherent.targets b B hB n (by rw [hsucc]; exact mem_singleton_self _)
      exact ⟨c, C, N, hC, hN⟩)
    refine ⟨C'.body.modify b fun B => { B with instrs := afterPhis [pushTag (tagFromDict n T).1, pushTag ft] (B.instrs.dropLast ++
      [tagCall ft (some (tagFromDict n T).1) i]) }, (tagFromDict n T).2, ?_, ?_⟩
    · unfold finishCall
      rw [hB', Option.bind_some]
      simp only [hl, getLast?_concat, hft]
      rw [show (Block.succs { B with instrs := l ++ [i] }) = [n] from hsucc]
    · refine inv_done hv' hC hC' hB (.call l i n ft (tagFromDict n T).1 [(tagFromDict n T).1, ft] (Or.inr rfl) hty hl hi hno hj hf (request_stable n T).2.1
        (hv'.fnTags _ _ hft) hr) rfl ?_ ?_
      · unfold BlockList.modify
        simp only [map_map]
        refine map_congr_left fun y _ => ?_
        show (if _ then _ else _ : Block).id = _
        split <;> rfl
      · intro x
        rw [get_modify (by intro y; rfl)]
        by_cases hx : x = b
        · rw [if_pos hx, hx, hB', Option.map_some, if_pos rfl]
          simp only [hl, dropLast_concat]
          rfl
        · rw [if_neg hx]
          cases C'.body.get x <;> simp [hx]
  | call _ _ _ _ _ _ _ _ _ _ _ _ _ _ _ hr' => exact absurd hrawT hr'
  | tail _ _ _ _ _ _ _ _ _ _ hr' => exact absurd hrawT hr'

/-- The blocks of the component `c` in the list, and `r`. -/
def withAll (r : Option String → String → Prop) (c : Option String) (ids : List String) : Option String → String → Prop :=
  fun d x => (d = c ∧ x ∈ ids) ∨ r d x

theorem inv_blocks {r : Option String → String → Prop} {c : Option String} : ∀ (ids : List String) {H O' : Obj} {T : TagDict} {C' : Component},
    ids.Nodup → Inv names R f2t O0 (withAll r c ids) H O' T → (∀ x ∈ ids, ¬ r c x) → O'.comp c = some C' →
    ∃ G T' H', splitBlocks f2t ids C'.body T = some (G, T') ∧ Inv names R f2t O0 r H' (O'.set c G) T'
  | [], H, O', T, C', _, hv, _, hC' => by
    refine ⟨C'.body, T, H, rfl, ?_⟩
    rw [set_same hC']
    exact hv.congr fun d x => by unfold withAll; simp
  | b :: bs, H, O', T, C', hn, hv, hr, hC' => by
    obtain ⟨hb, hn'⟩ := nodup_cons.1 hn
    have hv1 : Inv names R f2t O0 (with1 (withAll r c bs) c b) H O' T := by
      refine hv.congr fun d x => ?_
      unfold withAll with1
      simp only [mem_cons]
      tauto
    have hr1 : ¬ withAll r c bs c b := by
      rintro (h | h)
      · exact hb h.2
      · exact hr b mem_cons_self h
    obtain ⟨C, B, hC, hB⟩ := hv1.rawEx c b (Or.inl ⟨rfl, rfl⟩)
    obtain ⟨C'', hC'', hdc⟩ := hv1.deco.some c C hC
    rw [hC'] at hC''
    cases hC''
    obtain ⟨D, hD, _⟩ := hdc.some b B hB
    obtain ⟨cur, G1, T1, H1, B1, h1, h2, h3, h4, h5⟩ := inv_loop (D.length + 1) hv1 hr1 hC' hD (Nat.lt_succ_self _)
    have hc1 : (O'.set c G1).comp c = some ⟨C'.args, G1⟩ := by rw [comp_set hC', if_pos rfl]
    obtain ⟨G2, T2', h6, h7⟩ := inv_finish h2 h3 hc1 h4 h5
    rw [set_twice] at h7
    have hc2 : (O'.set c G2).comp c = some ⟨C'.args, G2⟩ := by rw [comp_set hC', if_pos rfl]
    obtain ⟨G3, T3, H3, h8, h9⟩ := inv_blocks bs hn' h7 (fun x hx => hr x (mem_cons_of_mem _ hx)) hc2
    rw [set_twice] at h9
    refine ⟨G3, T3, H3, ?_, h9⟩
    unfold splitBlocks
    rw [hD, Option.bind_some]
    simp only [h1, Option.bind_some]
    rw [h6, Option.bind_some]
    exact h8

/-- The blocks of the functions `fs`. -/
def rawFns (fs : List String) (O' : Obj) : Option String → String → Prop := fun d x => ∃ f ∈ fs, d = some f ∧ ∃ C X, O'.comp d = some C ∧ C.body.get x = some X

theorem inv_list {r : Option String → String → Prop} {c : Option String} {H O' : Obj} {T : TagDict} {C' : Component} (hC' : O'.comp c = some C')
    (hv : Inv names R f2t O0 (withAll r c (C'.body.blocks.map (·.id))) H O' T) (hr : ∀ x, ¬ r c x) (hids : (C'.body.blocks.map (·.id)).Nodup) :
    ∃ G T' H', splitList f2t C'.body T = some (G, T') ∧ Inv names R f2t O0 r H' (O'.set c G) T' :=
  inv_blocks _ hids hv (fun x _ => hr x) hC'

theorem inv_ids {raw : Option String → String → Prop} {H O' : Obj} {T : TagDict} (hv : Inv names R f2t O0 raw H O' T) {c : Option String} {C' : Component}
    (hC' : O'.comp c = some C') : (C'.body.blocks.map (·.id)).Nodup := by
  cases hC : H.comp c with
  | none => rw [hv.deco.none c hC] at hC'; cases hC'
  | some C =>
    obtain ⟨C'', hC'', hdc⟩ := hv.deco.some c C hC
    rw [hC'] at hC''
    cases hC''
    exact hdc.ids

theorem inv_fns : ∀ (fs : List String) {H O' : Obj} {T : TagDict}, fs.Nodup → (∀ f ∈ fs, ∃ F, O'.fns f = some F) → Inv names R f2t O0 (rawFns fs O') H O' T →
    ∃ O'' T' H', splitFns f2t fs O' T = some (O'', T') ∧ Inv names R f2t O0 (fun _ _ => False) H' O'' T'
  | [], H, O', T, _, _, hv => ⟨O', T, H, rfl, hv.congr fun d x => by unfold rawFns; simp⟩
  | f :: fs, H, O', T, hn, hF, hv => by
    obtain ⟨hf, hn'⟩ := nodup_cons.1 hn
    obtain ⟨F, hFf⟩ := hF f mem_cons_self
    have hC' : O'.comp (some f) = some F := hFf
    have hv1 : Inv names R f2t O0 (withAll (rawFns fs O') (some f) (F.body.blocks.map (·.id))) H O' T := by
      refine hv.congr fun d x => ?_
      unfold rawFns withAll
      constructor
      · rintro ⟨g, hg, rfl, C, X, hC, hX⟩
        rcases mem_cons.1 hg with rfl | hg'
        · rw [hC'] at hC
          cases hC
          exact Or.inl ⟨rfl, get_isSome_iff.1 ⟨X, hX⟩⟩
        · exact Or.inr ⟨g, hg', rfl, C, X, hC, hX⟩
      · rintro (⟨rfl, hx⟩ | ⟨g, hg, rfl, h⟩)
        · obtain ⟨X, hX⟩ := get_isSome_iff.2 hx
          exact ⟨f, mem_cons_self, rfl, F, X, hC', hX⟩
        · exact ⟨g, mem_cons_of_mem _ hg, rfl, h⟩
    obtain ⟨G, T1, H1, h1, h2⟩ := inv_list hC' hv1 (by rintro x ⟨g, hg, h, _⟩; cases h; exact hf hg) (inv_ids hv hC')
    have hset := comp_set hC' G
    have hv2 : Inv names R f2t O0 (rawFns fs (O'.set (some f) G)) H1 (O'.set (some f) G) T1 := by
      refine h2.congr fun d x => ?_
      unfold rawFns
      constructor
      · rintro ⟨g, hg, rfl, h⟩
        refine ⟨g, hg, rfl, ?_⟩
        rw [hset, if_neg (by rintro h; cases h; exact hf hg)]
        exact h
      · rintro ⟨g, hg, rfl, h⟩
        refine ⟨g, hg, rfl, ?_⟩
        rw [hset, if_neg (by rintro h; cases h; exact hf hg)] at h
        exact h
    obtain ⟨O'', T2, H2, h3, h4⟩ := inv_fns fs hn' (by
      intro g hg
      obtain ⟨E, hE⟩ := hF g (mem_cons_of_mem _ hg)
      refine ⟨E, ?_⟩
      have := hset (some g)
      rw [if_neg (by rintro h; cases h; exact hf hg)] at this
      exact this.trans hE) hv2
    refine ⟨O'', T2, H2, ?_, h4⟩
    unfold splitFns
    rw [hFf, Option.bind_some]
    simp only [h1, Option.bind_some]
    exact h3

/-- All blocks of the object. -/
def rawAll (O' : Obj) : Option String → String → Prop := fun d x => ∃ C X, O'.comp d = some C ∧ C.body.get x = some X

theorem inv_obj (hn : names.Nodup) {H O' : Obj} {T : TagDict} (hv : Inv names R f2t O0 (rawAll O') H O' T) :
    ∃ G T1 O'' T' H', splitList f2t O'.main T = some (G, T1) ∧ splitFns f2t names (O'.set none G) T1 = some (O'', T') ∧
      Inv names R f2t O0 (fun _ _ => False) H' O'' T' := by
  have hC' : O'.comp none = some ⟨[], O'.main⟩ := rfl
  have hfn : ∀ f, f ∈ names ↔ ∃ F, O'.fns f = some F := by
    intro f
    rw [hv.parts.fns f]
    constructor
    · rintro ⟨F, hF⟩
      obtain ⟨F', hF', _⟩ := hv.deco.some (some f) F hF
      exact ⟨F', hF'⟩
    · rintro ⟨F', hF'⟩
      cases hF : H.fns f with
      | none =>
        have := hv.deco.none (some f) hF
        rw [show O'.comp (some f) = O'.fns f from rfl, hF'] at this
        cases this
      | some F => exact ⟨F, rfl⟩
  have hv1 : Inv names R f2t O0 (withAll (rawFns names O') none (O'.main.blocks.map (·.id))) H O' T := by
    refine hv.congr fun d x => ?_
    unfold rawAll withAll rawFns
    constructor
    · rintro ⟨C, X, hC, hX⟩
      cases d with
      | none =>
        rw [hC'] at hC
        cases hC
        exact Or.inl ⟨rfl, get_isSome_iff.1 ⟨X, hX⟩⟩
      | some f => exact Or.inr ⟨f, (hfn f).2 ⟨C, hC⟩, rfl, C, X, hC, hX⟩
    · rintro (⟨rfl, hx⟩ | ⟨g, hg, rfl, h⟩)
      · obtain ⟨X, hX⟩ := get_isSome_iff.2 hx
        exact ⟨_, X, hC', hX⟩
      · exact h
  obtain ⟨G, T1, H1, h1, h2⟩ := inv_list hC' hv1 (by rintro x ⟨g, hg, h, _⟩; cases h) (inv_ids hv hC')
  have hset := comp_set hC' G
  have hv2 : Inv names R f2t O0 (rawFns names (O'.set none G)) H1 (O'.set none G) T1 := by
    refine h2.congr fun d x => ?_
    unfold rawFns
    constructor
    · rintro ⟨g, hg, rfl, h⟩
      refine ⟨g, hg, rfl, ?_⟩
      rw [hset, if_neg (by simp)]
      exact h
    · rintro ⟨g, hg, rfl, h⟩
      refine ⟨g, hg, rfl, ?_⟩
      rw [hset, if_neg (by simp)] at h
      exact h
  obtain ⟨O'', T2, H2, h3, h4⟩ := inv_fns names (O' := O'.set none G) hn (fun f hf => (hfn f).1 hf) hv2
  exact ⟨G, T1, O'', T2, H2, h1, h3, h4⟩

end
end Grey.Lower
