/-
Inserting jumps and tags and splitting at calls preserves programs: C61.
-/
import Verif.Lower.Insert
import Verif.Lower.Runs
namespace Grey.Lower
open List Grey.Cfg Grey.Inline Grey.Prep Grey.Sfs

theorem ready_of_inv {V σ : Type} {names : List String} {R : Option String → Option String} {f2t : List (String × Nat)} {O H O' : Obj} {T : TagDict}
    {dec : String → String × Option (List String)} {I : Interp V σ} {main : String} (hv : Inv names R f2t O (fun _ _ => False) H O' T)
    (ho : OpsOk names dec I O) (hm : main ∉ names ++ haltOps) : Ready names R T H O' dec I main := by
  refine ⟨hv.parts, hv.deco, ho.known, ?_, ho.tag, hm⟩
  intro c C x X i hC hX hi hop
  obtain ⟨C0, x0, X0, h1, h2, h3⟩ := hv.source c C x X i hC hX hi
  obtain ⟨e1, e2, e3⟩ := ho.other c C0 x0 X0 i h1 h2 h3 hop
  have hP := hv.parts.blocks c C hC x X hX
  have hmem : i ∈ X.instrs := (mem_filter.1 hi).1
  simp only [mem_append, mem_singleton, not_or] at hop
  refine ⟨hop.2, hop.1.1, hop.1.2, e1, e2, e3, fun y hy => hP.plain i hmem y (mem_append_left _ hy), fun y hy => ⟨hP.vars i hmem y hy, ?_⟩⟩
  exact (hP.plain i hmem y (mem_append_right _ hy)).2.2

/-- C61: the lowering of an object succeeds, and the program for the layout generation that results does what the object does, whatever the
operations mean and whatever the analyses before the layout generation say. -/
theorem lowering_preserves_program {names : List String} {O : Obj} (hL : Lowerable names O) :
    ∃ O' T, lower names O = some (O', T) ∧
      ∀ (V σ : Type) (I : Interp V σ) (dec : String → String × Option (List String)) (main : String) (A : Option String → Analysis),
        OpsOk names dec I O → main ∉ names ++ haltOps → ∀ w, RunsLike I dec (toProg names dec main A O') (entry I main O' w) O w := by
  obtain ⟨O', T, f2t, H, h1, hv⟩ := lower_deco hL
  refine ⟨O', T, h1, ?_⟩
  intro V σ I dec main A ho hm w
  obtain ⟨e1, e2⟩ := runs_iff (A := A) (ready_of_inv hv ho hm) w
  have hb := hv.runs V _ (meaning I dec) (zeros I) (w, none)
  refine ⟨fun h => (e1 h).trans ?_, e2.trans hb.2.symm⟩
  constructor
  · rintro ⟨s, hs, hh⟩; exact ⟨s, (hb.1 s).2 hs, hh⟩
  · rintro ⟨s, hs, hh⟩; exact ⟨s, (hb.1 s).1 hs, hh⟩

/-- After the lowering, a call is the last instruction of its block. -/
theorem lowering_calls_last {names : List String} {O O' : Obj} {T : TagDict} (hL : Lowerable names O) (h : lower names O = some (O', T)) {c : Option String}
    {C : Component} (hC : O'.comp c = some C) {x : String} {X : Block} (hX : C.body.get x = some X) {l l' : List Instr} {i : Instr}
    (hl : X.instrs = l ++ i :: l') (hi : i.op ∈ names) : l' = [] := by
  obtain ⟨O2, T2, f2t, H, h1, hv⟩ := lower_deco hL
  rw [h] at h1
  cases h1
  cases hC0 : H.comp c with
  | none => rw [hv.deco.none c hC0] at hC; cases hC
  | some C0 =>
    obtain ⟨C', hC', hd⟩ := hv.deco.some c C0 hC0
    rw [hC] at hC'
    cases hC'
    cases hX0 : C0.body.get x with
    | none => rw [hd.none x hX0] at hX; cases hX
    | some X0 =>
      obtain ⟨D, hD, hdeco⟩ := hd.some x X0 hX0
      rw [hX] at hD
      cases hD
      simp only at hl
      have npush : ∀ t, (pushTag t).op ∉ names := fun t h => hv.parts.names _ h (by simp [pushTag])
      have njump : "JUMP" ∉ names := fun h => hv.parts.names _ h (by simp)
      have njumpi : "JUMPI" ∉ names := fun h => hv.parts.names _ h (by simp)
      have nret : "functionReturn" ∉ names := fun h => hv.parts.names _ h (by simp)
      -- if only the last instruction is a call, nothing follows a call
      have last : ∀ (p : List Instr) (e : Instr), p ++ [e] = l ++ i :: l' → (∀ j ∈ p, j.op ∉ names) → l' = [] := by
        intro p e hp hn
        rcases eq_nil_or_concat' l' with rfl | ⟨q, z, rfl⟩
        · rfl
        · have : p ++ [e] = (l ++ i :: q) ++ [z] := by simpa using hp
          have := (append_inj' this rfl).1
          exact absurd hi (hn i (by rw [this]; simp))
      have lastPhi : ∀ (ts : List Nat) (p : List Instr) (e : Instr), afterPhis (ts.map pushTag) (p ++ [e]) = l ++ i :: l' → e.op ∈ names →
          (∀ j ∈ p, j.op ∉ names) → l' = [] := by
        intro ts p e hp he hn
        have hphi : isPhi e = false := not_phi rfl fun h => hv.parts.names _ he (by rw [h]; simp)
        have : afterPhis (ts.map pushTag) (p ++ [e]) = (p.takeWhile isPhi ++ ts.map pushTag ++ p.dropWhile isPhi) ++ [e] := by
          unfold afterPhis
          rw [takeWhile_append, dropWhile_append]
          split
          · rename_i h
            have h1 : p.dropWhile isPhi = [] := by
              have := congrArg length (takeWhile_append_dropWhile (p := isPhi) (l := p))
              rw [length_append] at this
              exact length_eq_zero_iff.1 (by omega)
            have h2 : p.takeWhile isPhi = p := by
              have := takeWhile_append_dropWhile (p := isPhi) (l := p)
              rwa [h1, append_nil] at this
            rw [h1]
            simp [hphi, h2]
          · rename_i h
            have h1 : p.dropWhile isPhi ≠ [] := by
              intro h1
              have := takeWhile_append_dropWhile (p := isPhi) (l := p)
              rw [h1, append_nil] at this
              rw [this] at h
              exact h rfl
            simp [h1]
        rw [this] at hp
        refine last _ e hp ?_
        intro j hj
        simp only [mem_append, mem_map] at hj
        rcases hj with (hj | ⟨t, _, rfl⟩) | hj
        · exact hn j ((takeWhile_sublist _).mem hj)
        · exact npush t
        · exact hn j ((dropWhile_sublist _).mem hj)
      cases hdeco with
      | exit hty hj hf hc => exact absurd hi (hc.resolve_left id i (by rw [hl]; simp))
      | jump y t hty hj hf ht hc =>
        have hmem : i ∈ X0.instrs ++ [pushTag t, ⟨"JUMP", [toString t], []⟩] := by rw [hl]; simp
        simp only [mem_append, mem_cons, not_mem_nil, or_false] at hmem
        rcases hmem with h | rfl | rfl
        · exact absurd hi (hc.resolve_left id i h)
        · exact absurd hi (npush t)
        · exact absurd hi njump
      | branch y z cd t hty hj hf hcond ht hc =>
        have hmem : i ∈ X0.instrs ++ [pushTag t, ⟨"JUMPI", [toString t, cd], []⟩] := by rw [hl]; simp
        simp only [mem_append, mem_cons, not_mem_nil, or_false] at hmem
        rcases hmem with h | rfl | rfl
        · exact absurd hi (hc.resolve_left id i h)
        · exact absurd hi (npush t)
        · exact absurd hi njumpi
      | ret o p j hty hj hf hp hj' ho hc =>
        exact last p _ hl (hc.resolve_left id)
      | sub _ _ _ _ _ _ _ _ hraw => exact hraw.elim
      | call p j n ft rt ts hts hty hp hj hn _ _ _ _ => exact lastPhi ts p _ hl hj hn
      | tail p j ft hty hp hj hn _ _ _ => exact lastPhi [ft] p _ hl hj hn

/-- C62: after the lowering every jump pushes and gets the tag of the block it jumps to, every call pushes and gets the tag of the first
block of the function and, if the function returns, that of the block to return to; tags are not shared by blocks. -/
theorem lowering_tags {names : List String} {O O' : Obj} {T : TagDict} (hL : Lowerable names O) (h : lower names O = some (O', T)) :
    (∀ x y t, tagOf T x = some t → tagOf T y = some t → x = y) ∧
    ∀ c C x X, O'.comp c = some C → C.body.get x = some X →
      (X.jumpType = "unconditional" → ∃ y Y t l, X.jumpTo = some y ∧ C.body.get y = some Y ∧ tagOf T y = some t ∧
        X.instrs = l ++ [pushTag t, ⟨"JUMP", [toString t], []⟩]) ∧
      (X.jumpType = "conditional" → ∃ y Y cond t l, X.jumpTo = some y ∧ C.body.get y = some Y ∧ X.cond = some cond ∧ tagOf T y = some t ∧
        X.instrs = l ++ [pushTag t, ⟨"JUMPI", [toString t, cond], []⟩]) ∧
      (∀ i, X.instrs.getLast? = some i → i.op ∈ names → ∃ ft args, FnTag O' T i.op ft ∧ pushTag ft ∈ X.instrs ∧
        ((i.ins = toString ft :: args ∧ X.fallsTo = none ∧ ∀ F, O.fns i.op = some F → ¬ Returns F) ∨
         ∃ n N rt, i.ins = toString ft :: args ++ [toString rt] ∧ X.fallsTo = some n ∧ C.body.get n = some N ∧ tagOf T n = some rt ∧
           pushTag rt ∈ X.instrs ∧ ∀ F, O.fns i.op = some F → Returns F)) := by
  obtain ⟨O2, T2, f2t, H, h1, hv⟩ := lower_deco hL
  rw [h] at h1
  cases h1
  refine ⟨fun x y t hx hy => tags_injective hv.tags hx hy, ?_⟩
  intro c C x X hC hX
  cases hC0 : H.comp c with
  | none => rw [hv.deco.none c hC0] at hC; cases hC
  | some C0 =>
    obtain ⟨C', hC', hd⟩ := hv.deco.some c C0 hC0
    rw [hC] at hC'
    cases hC'
    cases hX0 : C0.body.get x with
    | none => rw [hd.none x hX0] at hX; cases hX
    | some X0 =>
      obtain ⟨D, hD, hdeco⟩ := hd.some x X0 hX0
      rw [hX] at hD
      cases hD
      have target : ∀ y, y ∈ X0.succs → ∃ Y, C.body.get y = some Y := by
        intro y hy
        obtain ⟨Y, hY⟩ := (hv.parts.sane c C0 hC0).coherent.targets x X0 hX0 y hy
        obtain ⟨D', hD', _⟩ := hd.some y Y hY
        exact ⟨_, hD'⟩
      have fnTag : ∀ {f t}, FnTag H T f t → FnTag O' T f t := by
        rintro f t ⟨F, s, hF, hs, ht⟩
        obtain ⟨F', hF', hdF⟩ := hv.deco.some (some f) F hF
        exact ⟨F', s, hF', hdF.start.trans hs, ht⟩
      have rets : ∀ f F, O.fns f = some F → (retOf O (some f) = none ↔ ¬ Returns F) := fun f F hF => ret_none hL hF
      have npush : ∀ t, (pushTag t).op ∉ names := fun t h => hv.parts.names _ h (by simp [pushTag])
      have njump : "JUMP" ∉ names := fun h => hv.parts.names _ h (by simp)
      have njumpi : "JUMPI" ∉ names := fun h => hv.parts.names _ h (by simp)
      have nret : "functionReturn" ∉ names := fun h => hv.parts.names _ h (by simp)
      have hok := hv.parts.blocks c C0 hC0 x X0 hX0
      have isIn : ∀ (ts : List Nat) t, t ∈ ts → ∀ l, pushTag t ∈ afterPhis (ts.map pushTag) l := by
        intro ts t ht l
        unfold afterPhis
        simp only [mem_append, mem_map]
        exact Or.inl (Or.inr ⟨t, ht, rfl⟩)
      have nphi : ∀ (i : Instr) ft rt, i.op ∈ names → isPhi (tagCall ft rt i) = false := fun i ft rt hi =>
        not_phi rfl fun h => hv.parts.names _ hi (by rw [show i.op = _ from h]; simp)
      cases hdeco with
      | exit hty hj hf hc =>
        refine ⟨fun h => ?_, fun h => ?_, fun i hi hin => ?_⟩
        · rw [show X0.jumpType = _ from h] at hty; exact absurd hty (by decide)
        · rw [show X0.jumpType = _ from h] at hty; exact absurd hty (by decide)
        · exact absurd hin (hc.resolve_left id i (mem_of_getLast? hi))
      | jump y t hty hj hf ht hc =>
        obtain ⟨Y, hY⟩ := target y (mem_succs.2 (Or.inl hj))
        refine ⟨fun _ => ⟨y, Y, t, X0.instrs, hj, hY, ht, rfl⟩, fun h => ?_, fun i hi hin => ?_⟩
        · rw [show X0.jumpType = _ from h] at hty; exact absurd hty (by decide)
        · simp only at hi
          rw [getLast?_append] at hi
          cases hi
          exact absurd hin njump
      | branch y z cd t hty hj hf hcond ht hc =>
        obtain ⟨Y, hY⟩ := target y (mem_succs.2 (Or.inl hj))
        refine ⟨fun h => ?_, fun _ => ⟨y, Y, cd, t, X0.instrs, hj, hY, hcond, ht, rfl⟩, fun i hi hin => ?_⟩
        · rw [show X0.jumpType = _ from h] at hty; exact absurd hty (by decide)
        · simp only at hi
          rw [getLast?_append] at hi
          cases hi
          exact absurd hin njumpi
      | ret o p j hty hj hf hp hj' ho hc =>
        refine ⟨fun h => ?_, fun h => ?_, fun i hi hin => ?_⟩
        · rw [show X0.jumpType = _ from h] at hty; exact absurd hty (by decide)
        · rw [show X0.jumpType = _ from h] at hty; exact absurd hty (by decide)
        · simp only at hi
          rw [getLast?_concat] at hi
          cases hi
          rw [show j.op = _ from hj'] at hin
          exact absurd hin nret
      | sub _ _ _ _ _ _ _ _ hraw => exact hraw.elim
      | call p j n ft rt ts hts hty hp hj hn hjn hf hrt hft =>
        refine ⟨fun h => ?_, fun h => ?_, fun i hi hin => ?_⟩
        · rw [show X0.jumpType = _ from h] at hty; exact absurd hty (by decide)
        · rw [show X0.jumpType = _ from h] at hty; exact absurd hty (by decide)
        · simp only at hi
          rw [getLast_afterPhis (nphi j ft (some rt) hj)] at hi
          cases hi
          obtain ⟨N, hN⟩ := target n (mem_succs.2 (Or.inr hf))
          have h1 : ft ∈ ts ∧ rt ∈ ts := by rcases hts with rfl | rfl <;> simp
          refine ⟨ft, j.ins, fnTag hft, isIn ts ft h1.1 _, Or.inr ⟨n, N, rt, rfl, hf, hN, hrt, isIn ts rt h1.2 _, ?_⟩⟩
          intro F hF
          by_contra hR
          have := (hok.tails p j [] hp hj).1 ((rets _ F hF).2 hR)
          rw [hf] at this
          cases this.2.2
      | tail p j ft hty hp hj hn hjn hf hft =>
        refine ⟨fun h => ?_, fun h => ?_, fun i hi hin => ?_⟩
        · rw [show X0.jumpType = _ from h] at hty; exact absurd hty (by decide)
        · rw [show X0.jumpType = _ from h] at hty; exact absurd hty (by decide)
        · simp only at hi
          rw [getLast_afterPhis (nphi j ft none hj)] at hi
          cases hi
          refine ⟨ft, j.ins, fnTag hft, isIn [ft] ft (by simp) _, Or.inl ⟨?_, hf, ?_⟩⟩
          · show _ :: _ ++ [] = _
            rw [append_nil]
          · intro F hF
            exact (rets _ F hF).1 ((hok.tails p j [] hp hj).2 ⟨rfl, hjn, hf⟩)

end Grey.Lower
