/-
One split at a call, on the object and on the decorated object.
-/
import Verif.Lower.Parts
import Verif.Lower.Fine
namespace Grey.Lower
open List Grey.Cfg Grey.Inline Grey.Prep

section
variable {names : List String} {R : Option String → Option String}

/-- The names of the blocks still to be processed: `b` of `c`, and `r`. -/
def with1 (r : Option String → String → Prop) (c : Option String) (b : String) : Option String → String → Prop :=
  fun d x => (d = c ∧ x = b) ∨ r d x

/-- What holds while the calls are split off: `O0` is the object at the beginning, `H` the object with the same split blocks but without
jumps and tags, `O'` the one that the code works on. -/
structure Inv (names : List String) (R : Option String → Option String) (f2t : List (String × Nat)) (O0 : Obj)
    (raw : Option String → String → Prop) (H O' : Obj) (T : TagDict) : Prop where
  parts : PartsOk names R H
  deco : Decorated names R T raw H O'
  tags : GoodTags T
  keys : ∀ x t, tagOf T x = some t → ∃ c C X, H.comp c = some C ∧ C.body.get x = some X
  fnTags : ∀ f t, f2t.lookup f = some t → FnTag H T f t
  calls : ∀ f, (f2t.lookup f).isSome ↔ f ∈ names
  runs : SameRuns O0 H
  source : ∀ c C x X i, H.comp c = some C → C.body.get x = some X → i ∈ code X →
    ∃ C0 x0 X0, O0.comp c = some C0 ∧ C0.body.get x0 = some X0 ∧ i ∈ code X0
  rawEx : ∀ c x, raw c x → ∃ C X, H.comp c = some C ∧ C.body.get x = some X
  fine : (∀ c C, O0.comp c = some C → FineComp names C) → ∀ c C, H.comp c = some C → FineComp names C

theorem deco_sane {H : Obj} {T : TagDict} {ret : Option String} {raw : String → Prop} {C C' : Component} (h : DecoComp names H T ret raw C C')
    (hC : Sane C.body) : Sane C'.body := by
  have back : ∀ x X', C'.body.get x = some X' → ∃ X D, C.body.get x = some X ∧ X' = { X with instrs := D } := by
    intro x X' hX'
    cases hX : C.body.get x with
    | none => rw [h.none x hX] at hX'; cases hX'
    | some X =>
      obtain ⟨D, hD, _⟩ := h.some x X hX
      rw [hX'] at hD
      cases hD
      exact ⟨X, D, rfl, rfl⟩
  have fwd : ∀ x X, C.body.get x = some X → ∃ X', C'.body.get x = some X' := fun x X hX => by
    obtain ⟨D, hD, _⟩ := h.some x X hX
    exact ⟨_, hD⟩
  refine ⟨⟨h.ids, ?_, ?_, ?_, ?_⟩, ?_, ?_, ?_⟩
  · intro p q P' Q' hP' hQ'
    obtain ⟨P, D, hP, rfl⟩ := back p P' hP'
    obtain ⟨Q, E, hQ, rfl⟩ := back q Q' hQ'
    exact hC.coherent.edges p q P Q hP hQ
  · intro q Q' hQ' x hx
    obtain ⟨Q, E, hQ, rfl⟩ := back q Q' hQ'
    obtain ⟨P, hP⟩ := hC.coherent.preds q Q hQ x hx
    exact fwd x P hP
  · intro p P' hP' x hx
    obtain ⟨P, D, hP, rfl⟩ := back p P' hP'
    obtain ⟨Q, hQ⟩ := hC.coherent.targets p P hP x hx
    exact fwd x Q hQ
  · intro q Q' hQ'
    obtain ⟨Q, E, hQ, rfl⟩ := back q Q' hQ'
    exact hC.coherent.once q Q hQ
  · intro x X' hX'
    obtain ⟨X, D, hX, rfl⟩ := back x X' hX'
    exact hC.noDouble x X hX
  · intro q Q' hQ'
    obtain ⟨Q, E, hQ, rfl⟩ := back q Q' hQ'
    exact hC.entries q Q hQ
  · obtain ⟨s, S, h1, h2⟩ := hC.start
    obtain ⟨S', hS'⟩ := fwd s S h2
    exact ⟨s, S', h.start.trans h1, hS'⟩

/-- Decorations are kept if the names of targets change along with the tags. -/
theorem deco_map {H H' : Obj} {T T' : TagDict} {ret : Option String} {raw raw' : Prop} {X X' : Block} {D : List Instr} (ρ : String → String)
    (hd : Deco names H T ret raw X D) (hraw : raw ↔ raw') (hi : X'.instrs = X.instrs) (hty : X'.jumpType = X.jumpType) (hcond : X'.cond = X.cond)
    (hj : X'.jumpTo = X.jumpTo.map ρ) (hf : X'.fallsTo = X.fallsTo.map ρ) (ht : ∀ y ∈ X.succs, ∀ t, tagOf T y = some t → tagOf T' (ρ y) = some t)
    (hfn : ∀ f t, FnTag H T f t → FnTag H' T' f t) : Deco names H' T' ret raw' X' D := by
  have hraw' := propext hraw
  subst hraw'
  cases hd with
  | exit hty' hj' hf' hc =>
    rw [← hi]
    exact .exit (by rw [hty]; exact hty') (by rw [hj, hj']; rfl) (by rw [hf, hf']; rfl) (by rw [hi]; exact hc)
  | jump y t hty' hj' hf' ht' hc =>
    rw [← hi]
    exact .jump (ρ y) t (by rw [hty]; exact hty') (by rw [hj, hj']; rfl) (by rw [hf, hf']; rfl) (ht y (mem_succs.2 (Or.inl hj')) t ht')
      (by rw [hi]; exact hc)
  | branch y z c t hty' hj' hf' hcond' ht' hc =>
    rw [← hi]
    exact .branch (ρ y) (ρ z) c t (by rw [hty]; exact hty') (by rw [hj, hj']; rfl) (by rw [hf, hf']; rfl) (by rw [hcond]; exact hcond')
      (ht y (mem_succs.2 (Or.inl hj')) t ht') (by rw [hi]; exact hc)
  | ret o l i hty' hj' hf' hl hi' ho hc =>
    exact .ret o l i (by rw [hty]; exact hty') (by rw [hj, hj']; rfl) (by rw [hf, hf']; rfl) (by rw [hi]; exact hl) hi' ho hc
  | sub l i n hty' hl hi' hj' hf' hr =>
    rw [← hi]
    exact .sub l i (ρ n) (by rw [hty]; exact hty') (by rw [hi]; exact hl) hi' (by rw [hj, hj']; rfl) (by rw [hf, hf']; rfl) hr
  | call l i n ft rt ts hts hty' hl hi' hn hj' hf' hrt hft hr =>
    exact .call l i (ρ n) ft rt ts hts (by rw [hty]; exact hty') (by rw [hi]; exact hl) hi' hn (by rw [hj, hj']; rfl) (by rw [hf, hf']; rfl)
      (ht n (mem_succs.2 (Or.inr hf')) rt hrt) (hfn _ _ hft) hr
  | tail l i ft hty' hl hi' hn hj' hf' hft hr =>
    exact .tail l i ft (by rw [hty]; exact hty') (by rw [hi]; exact hl) hi' hn (by rw [hj, hj']; rfl) (by rw [hf, hf']; rfl) (hfn _ _ hft) hr

/-- A call before the last instruction of a decorated block that is still to be processed is a call of the block that returns. -/
theorem raw_call {H : Obj} {T : TagDict} {ret : Option String} {raw : Prop} {B : Block} {D : List Instr} (hd : Deco names H T ret raw B D) (hraw : raw)
    (hn : ∀ f ∈ names, f ∉ ["PhiFunction", "functionReturn", "JUMP", "JUMPI", "PUSH [tag]"] ++ haltOps) {l l' : List Instr} {i : Instr}
    (hD : D = l ++ i :: l') (hi : i.op ∈ names) (hl' : l' ≠ []) :
    ∃ m, B.instrs = l ++ i :: m ∧ ¬ (m = [] ∧ B.jumpTo = none ∧ B.fallsTo = none) ∧
      ∀ {H' : Obj} {T' : TagDict} {B' : Block}, B'.instrs = m → B'.jumpType = B.jumpType → B'.cond = B.cond → B'.jumpTo = B.jumpTo →
        B'.fallsTo = B.fallsTo → (∀ y ∈ B.succs, ∀ t, tagOf T y = some t → tagOf T' y = some t) → Deco names H' T' ret True B' l' := by
  -- a list of two instructions that are not calls
  have two : ∀ (p : List Instr) (a e : Instr), a.op ∉ names → e.op ∉ names → p ++ [a, e] = l ++ i :: l' → ∃ m, p = l ++ i :: m ∧ l' = m ++ [a, e] := by
    intro p a e ha he hp
    rcases eq_nil_or_concat' l' with rfl | ⟨q, z, rfl⟩
    · exact absurd rfl hl'
    · have h1 : (p ++ [a]) ++ [e] = (l ++ i :: q) ++ [z] := by simpa using hp
      obtain ⟨h2, h3⟩ := append_inj' h1 rfl
      rcases eq_nil_or_concat' q with rfl | ⟨m, z', rfl⟩
      · have := (append_inj' h2 rfl).2
        simp only [cons.injEq, and_true] at this
        rw [← this] at hi
        exact absurd hi ha
      · have h4 : p ++ [a] = (l ++ i :: m) ++ [z'] := by simpa using h2
        obtain ⟨h5, h6⟩ := append_inj' h4 rfl
        refine ⟨m, h5, ?_⟩
        simp only [cons.injEq, and_true] at h3 h6
        rw [h3, h6]; simp
  have npush : ∀ t, (pushTag t).op ∉ names := fun t h => hn _ h (by simp [pushTag])
  have njump : "JUMP" ∉ names := fun h => hn _ h (by simp)
  have njumpi : "JUMPI" ∉ names := fun h => hn _ h (by simp)
  cases hd with
  | exit hty hj hf hc =>
    refine ⟨l', hD, fun h => hl' h.1, ?_⟩
    intro H' T' B' h1 h2 h3 h4 h5 _
    rw [← h1]
    exact .exit (by rw [h2]; exact hty) (by rw [h4]; exact hj) (by rw [h5]; exact hf) (Or.inl trivial)
  | jump y t hty hj hf ht hc =>
    obtain ⟨m, hm, rfl⟩ := two _ _ _ (npush t) njump hD
    refine ⟨m, hm, by rw [hj]; simp, ?_⟩
    intro H' T' B' h1 h2 h3 h4 h5 h6
    rw [← h1]
    exact .jump y t (by rw [h2]; exact hty) (by rw [h4]; exact hj) (by rw [h5]; exact hf) (h6 y (mem_succs.2 (Or.inl hj)) t ht) (Or.inl trivial)
  | branch y z c t hty hj hf hcond ht hc =>
    obtain ⟨m, hm, rfl⟩ := two _ _ _ (npush t) njumpi hD
    refine ⟨m, hm, by rw [hj]; simp, ?_⟩
    intro H' T' B' h1 h2 h3 h4 h5 h6
    rw [← h1]
    exact .branch y z c t (by rw [h2]; exact hty) (by rw [h4]; exact hj) (by rw [h5]; exact hf) (by rw [h3]; exact hcond)
      (h6 y (mem_succs.2 (Or.inl hj)) t ht) (Or.inl trivial)
  | ret o p j hty hj hf hl hi' ho hc =>
    rcases eq_nil_or_concat' l' with rfl | ⟨q, z, rfl⟩
    · exact absurd rfl hl'
    · have h1 : p ++ [{ j with ins := o :: j.ins }] = (l ++ i :: q) ++ [z] := by simpa using hD
      obtain ⟨h2, h3⟩ := append_inj' h1 rfl
      simp only [cons.injEq, and_true] at h3
      refine ⟨q ++ [j], by rw [hl, h2]; simp, by simp, ?_⟩
      intro H' T' B' e1 e2 e3 e4 e5 _
      rw [← h3]
      exact .ret o q j (by rw [e2]; exact hty) (by rw [e4]; exact hj) (by rw [e5]; exact hf) e1 hi' ho (Or.inl trivial)
  | sub p j n hty hl hjn hj hf hr =>
    refine ⟨l', hD, fun h => hl' h.1, ?_⟩
    intro H' T' B' h1 h2 h3 h4 h5 _
    rw [← h1]
    obtain ⟨q, z, rfl⟩ := (eq_nil_or_concat' l').resolve_left hl'
    have h6 : p ++ [j] = (l ++ i :: q) ++ [z] := by rw [← hl, hD]; simp
    have h7 := (append_inj' h6 rfl).2
    simp only [cons.injEq, and_true] at h7
    refine .sub q z n (by rw [h2]; exact hty) h1 (h7 ▸ hjn) (by rw [h4]; exact hj) (by rw [h5]; exact hf) trivial
  | call _ _ _ _ _ _ _ _ _ _ _ _ _ _ _ hr => exact absurd hraw hr
  | tail _ _ _ _ _ _ _ _ _ _ hr => exact absurd hraw hr

/-- A block that is split off by the code. -/
theorem inv_split {f2t : List (String × Nat)} {O0 : Obj} {r : Option String → String → Prop} {H O' : Obj} {T : TagDict} {c : Option String} {b : String}
    (hv : Inv names R f2t O0 (with1 r c b) H O' T) (hr : ¬ r c b) {C' : Component} (hC' : O'.comp c = some C') {B' : Block} (hB' : C'.body.get b = some B')
    {l l' : List Instr} {i : Instr} (hl : B'.instrs = l ++ i :: l') (hl' : l' ≠ []) (hfirst : ∀ j ∈ l, j.op ∉ names) {ft : Nat} (hft : f2t.lookup i.op = some ft) :
    ∃ G T' H' B2, splitCall l.length i ft b C'.body T = some (G, T') ∧ Inv names R f2t O0 (with1 r c (secondId b)) H' (O'.set c G) T' ∧
      ¬ r c (secondId b) ∧ G.get (secondId b) = some B2 ∧ B2.instrs = l' := by
  have hP := hv.parts
  have hi : i.op ∈ names := (hv.calls i.op).1 (by rw [hft]; rfl)
  -- the block
  obtain ⟨C, B, hC, hB⟩ := hv.rawEx c b (Or.inl ⟨rfl, rfl⟩)
  obtain ⟨C'', hC'', hdc⟩ := hv.deco.some c C hC
  rw [hC'] at hC''
  cases hC''
  obtain ⟨D, hD, hdeco⟩ := hdc.some b B hB
  rw [hB'] at hD
  cases hD
  simp only at hl
  obtain ⟨m, hm, hnt, hsecond⟩ := raw_call hdeco (Or.inl ⟨rfl, rfl⟩) hP.names hl hi hl'
  obtain ⟨G', hG', hP', hruns, hst', hget'⟩ := parts_split hP hC hB hm hi hnt
  -- the decorated graph
  obtain ⟨hf, hs⟩ := fresh_halves hP hC hB hC
  have hself := hP.noSelf c C hC b B hB
  obtain ⟨G1, hG1, hst1, hids1, hget1⟩ := split_spec (deco_sane hdc (hP.sane c C hC)) hB' hself (hdc.none _ hf) (hdc.none _ hs) l.length
  have hfs := firstId_ne_secondId b
  have hbid : B.id = b := get_id hB
  -- tags
  have hfT : firstId b ∉ T.map (·.1) := by
    intro h
    cases ht : tagOf T (firstId b) with
    | none => exact tagOf_none.1 ht h
    | some t =>
      obtain ⟨d, E, X, hE, hX⟩ := hv.keys _ t ht
      rw [(fresh_halves hP hC hB hE).1] at hX
      cases hX
  have hTm := good_move hv.tags b hfT
  have hT' := good_request hTm (secondId b)
  have hmv := split_moves_tag hv.tags b hfT
  have hrq := request_stable (secondId b) (moveTag b T)
  generalize hTT : (tagFromDict (secondId b) (moveTag b T)).2 = T' at hT' hrq
  generalize hrt : (tagFromDict (secondId b) (moveTag b T)).1 = rt at hrq
  have hmove : ∀ z t, tagOf T z = some t → tagOf T' (if z = b then firstId b else z) = some t := by
    intro z t hz
    refine hrq.2.2.1 _ _ ?_
    by_cases hzb : z = b
    · subst hzb; rw [if_pos rfl, hmv.1, hz]
    · rw [if_neg hzb, hmv.2.2 z hzb, hz]
      rintro rfl
      exact hfT (mem_map.2 ⟨_, tagOf_some hz, rfl⟩)
  have hkeep : ∀ z t, z ≠ b → tagOf T z = some t → tagOf T' z = some t := by
    intro z t hz ht
    have := hmove z t ht
    rwa [if_neg hz] at this
  have hset := comp_set hC G'
  have hfn : ∀ f t, FnTag H T f t → FnTag (H.set c G') T' f t := by
    rintro f t ⟨F, s, hF, hs1, ht⟩
    have hF' : H.comp (some f) = some F := hF
    by_cases hcf : some f = c
    · subst hcf
      rw [hC] at hF'
      cases hF'
      have hthis : (H.set (some f) G').fns f = some ⟨C.args, G'⟩ := by
        have := hset (some f)
        rw [if_pos rfl] at this
        exact this
      refine ⟨_, if s = b then firstId b else s, hthis, ?_, hmove s t ht⟩
      show G'.start = _
      rw [hst', hs1]
      by_cases hsb : s = b
      · rw [if_pos (by rw [hsb]), if_pos hsb]
      · rw [if_neg (fun h => hsb (Option.some.inj h)), if_neg hsb]
    · have hthis : (H.set c G').fns f = some F := by
        have := hset (some f)
        rw [if_neg hcf] at this
        exact this.trans hF'
      refine ⟨F, s, hthis, hs1, hkeep s t ?_ ht⟩
      rintro rfl
      obtain ⟨s', S, h1, h2⟩ := (hP.sane _ _ hF').start
      rw [hs1] at h1
      cases h1
      exact hcf (same_comp hP hF' hC h2 hB)
  -- what the code makes of the graph
  have htake : (firstHalf l.length { B with instrs := l ++ i :: l' }).instrs.dropLast = l := by
    show (take (l.length + 1) (l ++ i :: l')).dropLast = l
    rw [take_append, take_of_length_le (by omega)]
    simp
  rw [hl] at hget1
  have hcall : splitCall l.length i ft b C'.body T = some (G1.modify (firstId b) fun B =>
      { B with instrs := afterPhis [pushTag ft, pushTag rt] (B.instrs.dropLast ++ [tagCall ft (some rt) i]) }, T') := by
    unfold splitCall
    rw [hG1, Option.map_some]
    simp only [hTT, hrt]
  generalize hG2 : G1.modify (firstId b) (fun B =>
      { B with instrs := afterPhis [pushTag ft, pushTag rt] (B.instrs.dropLast ++ [tagCall ft (some rt) i]) }) = G2 at hcall
  have hget2 : ∀ x, G2.get x = if x = secondId b then some (secondHalf l.length { B with instrs := l ++ i :: l' }) else
      if x = firstId b then some { firstHalf l.length B with instrs := afterPhis [pushTag ft, pushTag rt] (l ++ [tagCall ft (some rt) i]) } else
      if x = b then none else (C'.body.get x).map (fixOther b { B with instrs := l ++ i :: l' } x) := by
    intro x
    rw [← hG2, get_modify (by intro y; rfl), hget1]
    by_cases h1 : x = secondId b
    · rw [if_pos h1, if_pos h1, Option.map_some, if_neg (by rw [h1]; exact Ne.symm hfs)]
    · rw [if_neg h1, if_neg h1]
      by_cases h2 : x = firstId b
      · rw [if_pos h2, if_pos h2, Option.map_some, if_pos h2, htake]
        rfl
      · rw [if_neg h2, if_neg h2]
        by_cases h3 : x = b
        · rw [if_pos h3]; rfl
        · rw [if_neg h3]
          cases C'.body.get x with
          | none => rfl
          | some Y => simp [h2]
  have hdrop : drop (l.length + 1) (l ++ i :: l') = l' := by
    rw [drop_append, drop_eq_nil_of_le (by omega)]
    simp
  have hdropB : drop (l.length + 1) B.instrs = m := by
    rw [hm, drop_append, drop_eq_nil_of_le (by omega)]
    simp
  have htakeB : take (l.length + 1) B.instrs = l ++ [i] := by
    rw [hm, take_append, take_of_length_le (by omega)]
    simp
  have hrs : ¬ r c (secondId b) := by
    intro h
    obtain ⟨E, X, hE, hX⟩ := hv.rawEx c _ (Or.inr h)
    rw [hC] at hE
    cases hE
    rw [hs] at hX
    cases hX
  have hrf : ¬ r c (firstId b) := by
    intro h
    obtain ⟨E, X, hE, hX⟩ := hv.rawEx c _ (Or.inr h)
    rw [hC] at hE
    cases hE
    rw [hf] at hX
    cases hX
  have hset' := comp_set hC' G2
  refine ⟨G2, T', H.set c G', secondHalf l.length { B with instrs := l ++ i :: l' }, hcall, ?_, hrs, by rw [hget2, if_pos rfl], hdrop⟩
  refine ⟨hP', ⟨?_, ?_⟩, hT', ?_, fun f t h => hfn f t (hv.fnTags f t h), hv.calls, hv.runs.trans hruns, ?_, ?_, ?_⟩
  · intro d hd
    rw [hset] at hd
    rw [hset']
    split at hd
    · cases hd
    · rename_i h
      rw [if_neg h]
      exact hv.deco.none d hd
  · intro d E hE
    rw [hset] at hE
    rw [hset']
    split at hE
    · rename_i hdc'
      subst hdc'
      cases hE
      refine ⟨⟨C'.args, G2⟩, by rw [if_pos rfl], hdc.args, ?_, ?_, ?_, ?_⟩
      · show G2.start = G'.start
        rw [← hG2, hst']
        show G1.start = _
        rw [hst1, hdc.start]
      · rw [← hG2]
        show ((G1.modify _ _).blocks.map (·.id)).Nodup
        have : (G1.modify (firstId b) fun B =>
            { B with instrs := afterPhis [pushTag ft, pushTag rt] (B.instrs.dropLast ++ [tagCall ft (some rt) i]) }).blocks.map (·.id) = G1.blocks.map (·.id) := by
          unfold BlockList.modify
          simp only [map_map]
          refine map_congr_left fun y _ => ?_
          show (if _ then _ else _ : Block).id = _
          split <;> rfl
        rw [this]
        exact hids1
      · intro x hx
        show G2.get x = none
        have hx' : G'.get x = none := hx
        rw [hget'] at hx'
        rw [hget2]
        split at hx'
        · cases hx'
        · rename_i h1
          rw [if_neg h1]
          split at hx'
          · cases hx'
          · rename_i h2
            rw [if_neg h2]
            split at hx'
            · rename_i h3
              rw [if_pos h3]
            · rename_i h3
              rw [if_neg h3, hdc.none x (Option.map_eq_none_iff.1 hx')]
              rfl
      · intro x X hX
        have hX' : G'.get x = some X := hX
        show ∃ D, G2.get x = some { X with instrs := D } ∧ _
        rw [hget'] at hX'
        rw [hget2]
        split at hX'
        · rename_i h1
          subst h1
          cases hX'
          rw [if_pos rfl]
          refine ⟨l', ?_, ?_⟩
          · show some (secondHalf l.length { B with instrs := l ++ i :: l' }) = some { secondHalf l.length B with instrs := l' }
            unfold secondHalf
            simp only [hdrop]
          · have hraw : with1 r d (secondId b) d (secondId b) = True := eq_true (Or.inl ⟨rfl, rfl⟩)
            rw [hraw]
            refine hsecond hdropB rfl rfl rfl rfl ?_
            intro y hy t ht
            refine hkeep y t ?_ ht
            rintro rfl
            exact hself hy
        · rename_i h1
          rw [if_neg h1]
          split at hX'
          · rename_i h2
            subst h2
            cases hX'
            rw [if_pos rfl]
            refine ⟨afterPhis [pushTag ft, pushTag rt] (l ++ [tagCall ft (some rt) i]), rfl, ?_⟩
            refine .call l i (secondId b) ft rt [ft, rt] (Or.inl rfl) rfl htakeB hi hfirst rfl ?_ hrq.2.1 (hfn _ _ (hv.fnTags _ _ hft)) ?_
            · show some (secondId B.id) = _
              rw [hbid]
            · rintro (h | h)
              · exact hfs h.2
              · exact hrf h
          · rename_i h2
            rw [if_neg h2]
            split at hX'
            · cases hX'
            · rename_i h3
              rw [if_neg h3]
              obtain ⟨Y, hY, rfl⟩ := Option.map_eq_some_iff.1 hX'
              obtain ⟨E, hE, hEd⟩ := hdc.some x Y hY
              refine ⟨E, by rw [hE]; rfl, ?_⟩
              refine deco_map (fun z => if z = b then firstId b else z) hEd ?_ rfl rfl rfl rfl rfl (fun y _ t ht => hmove y t ht) hfn
              unfold with1
              simp [h1, h3]
    · rename_i hdc'
      rw [if_neg hdc']
      obtain ⟨E', hE', hdE⟩ := hv.deco.some d E hE
      refine ⟨E', hE', hdE.args, hdE.start, hdE.ids, hdE.none, ?_⟩
      intro x X hX
      obtain ⟨D, hD, hdD⟩ := hdE.some x X hX
      refine ⟨D, hD, deco_map id hdD ?_ rfl rfl rfl (by simp) (by simp) ?_ hfn⟩
      · unfold with1
        simp [hdc']
      · intro y hy t ht
        refine hkeep y t ?_ ht
        rintro rfl
        obtain ⟨Q, hQ⟩ := (hP.sane d E hE).coherent.targets x X hX y hy
        exact hdc' (same_comp hP hE hC hQ hB)
  · intro x t ht
    by_cases h1 : x = secondId b
    · subst h1
      exact ⟨c, _, _, by rw [hset, if_pos rfl], by rw [hget', if_pos rfl]⟩
    · rw [hrq.2.2.2 x h1] at ht
      by_cases h2 : x = firstId b
      · subst h2
        exact ⟨c, _, _, by rw [hset, if_pos rfl], by rw [hget', if_neg h1, if_pos rfl]⟩
      · by_cases h3 : x = b
        · subst h3
          rw [hmv.2.1] at ht
          cases ht
        · rw [hmv.2.2 x h3 h2] at ht
          obtain ⟨d, E, X, hE, hX⟩ := hv.keys x t ht
          by_cases hdc' : d = c
          · subst hdc'
            rw [hC] at hE
            cases hE
            exact ⟨d, _, _, by rw [hset, if_pos rfl], by rw [hget', if_neg h1, if_neg h2, if_neg h3, hX]; rfl⟩
          · exact ⟨d, E, X, by rw [hset, if_neg hdc']; exact hE, hX⟩
  · intro d E x X j hE hX hj
    rw [hset] at hE
    split at hE
    · rename_i hdc'
      subst hdc'
      cases hE
      have hX' : G'.get x = some X := hX
      rw [hget'] at hX'
      split at hX'
      · cases hX'
        refine hv.source d C b B j hC hB ?_
        obtain ⟨h1, h2⟩ := mem_filter.1 hj
        exact mem_filter.2 ⟨mem_of_mem_drop h1, h2⟩
      · split at hX'
        · cases hX'
          refine hv.source d C b B j hC hB ?_
          obtain ⟨h1, h2⟩ := mem_filter.1 hj
          exact mem_filter.2 ⟨mem_of_mem_take h1, h2⟩
        · split at hX'
          · cases hX'
          · obtain ⟨Y, hY, rfl⟩ := Option.map_eq_some_iff.1 hX'
            exact hv.source d C x Y j hC hY hj
    · exact hv.source d E x X j hE hX hj
  · intro d x hdx
    rcases hdx with ⟨rfl, rfl⟩ | h
    · exact ⟨_, _, by rw [hset, if_pos rfl], by rw [hget', if_pos rfl]⟩
    · obtain ⟨E, X, hE, hX⟩ := hv.rawEx d x (Or.inr h)
      by_cases hdc' : d = c
      · subst hdc'
        rw [hC] at hE
        cases hE
        have h3 : x ≠ b := by rintro rfl; exact hr h
        have h1 : x ≠ secondId b := by rintro rfl; exact hrs h
        have h2 : x ≠ firstId b := by rintro rfl; exact hrf h
        exact ⟨_, _, by rw [hset, if_pos rfl], by rw [hget', if_neg h1, if_neg h2, if_neg h3, hX]; rfl⟩
      · exact ⟨E, X, by rw [hset, if_neg hdc']; exact hE, hX⟩
  · intro h0 d E hE
    rw [hset] at hE
    split at hE
    · cases hE
      obtain ⟨f1, f2, f3, f4⟩ := hv.fine h0 c C hC
      have hpf := (hP.blocks c C hC b B hB).phisFirst
      unfold phis code at hpf
      rw [hm] at hpf
      have hafter := no_phi_after hpf (not_phi_of_name hP.names hi)
      exact ⟨fine_split (hP.sane c C hC) f1 hB hself hf hs hm hafter hnt hst' hget', f2, f3,
        defined_split (hP.sane c C hC) f1.exact f4 hB hself hf hs hm (fun j hj => by
          rcases mem_cons.1 hj with rfl | h
          · exact not_phi_of_name hP.names hi
          · exact hafter j h) hst' hget'⟩
    · exact hv.fine h0 d E hE

end
end Grey.Lower
