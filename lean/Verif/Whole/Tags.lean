/-
Tags are pushed where they are used: no tag is live anywhere, and no tag is on the stack between blocks.
-/
import Verif.Whole.Analysed
import Verif.Layout.Origin
namespace Grey.Whole
open List Grey.Cfg Grey.Inline Grey.Lower Grey.Sfs Grey.Program Grey.SymExec Grey.Front Grey.Parser

/-- The name of a tag. -/
def IsTag (v : String) : Prop := ∃ t : Nat, v = toString t

theorem neat_not_tag {v : String} (h : Neat v) : ¬ IsTag v := by
  rintro ⟨t, rfl⟩
  exact tag_not_plain t (Front.Neat.plain h)

theorem snoc_split {α : Type} {l pre post : List α} {z i : α} (h : l ++ [z] = pre ++ i :: post) : (post = [] ∧ pre = l ∧ i = z) ∨ i ∈ l := by
  rcases eq_nil_or_concat post with rfl | ⟨q, y, rfl⟩
  · have := append_inj' h rfl
    exact Or.inl ⟨rfl, this.1.symm, by simpa using this.2.symm⟩
  · right
    rw [show pre ++ i :: q.concat y = (pre ++ i :: q) ++ [y] by simp] at h
    have := (append_inj' h rfl).1
    rw [this]; simp

theorem afterPhis_snoc {new l : List Instr} {z : Instr} (hz : isPhi z = false) : ∃ q, afterPhis new (l ++ [z]) = q ++ [z] ∧ (∀ i ∈ new, i ∈ q) ∧ ∀ i ∈ q, i ∈ new ∨ i ∈ l := by
  unfold afterPhis
  induction l with
  | nil => exact ⟨new, by simp [hz], fun i hi => hi, fun i hi => Or.inl hi⟩
  | cons a l ih =>
    cases ha : isPhi a with
    | true =>
      obtain ⟨q, h1, h2, h3⟩ := ih
      refine ⟨a :: q, ?_, fun i hi => mem_cons_of_mem _ (h2 i hi), ?_⟩
      · rw [cons_append, takeWhile_cons, dropWhile_cons, ha]
        simpa using h1
      · intro i hi
        rcases mem_cons.1 hi with rfl | hi
        · exact Or.inr mem_cons_self
        · exact (h3 i hi).imp_right (mem_cons_of_mem _)
    | false =>
      refine ⟨new ++ a :: l, by simp [takeWhile_cons, dropWhile_cons, ha], fun i hi => mem_append_left _ hi, fun i hi => mem_append.1 hi⟩

section
variable {C : Type} {names : List String} {R : Option String → Option String} {f2t : List (String × Nat)} {O : Obj} {T : TagDict} {H O' : Obj}
  {dec : String → String × Option (List String)} {I : Interp Nat (Loc → C)} {main : String} {A : Option String → Analysis}

theorem out_not_tag (f : String) : ¬ IsTag ("out_" ++ f) := by
  rintro ⟨t, h⟩
  obtain ⟨c, h1, h2⟩ := head_digit t
  rw [← h] at h1
  have : ("out_" ++ f).toList.head? = some 'o' := by simp [String.toList_append]
  rw [this] at h1
  cases h1
  exact absurd h2 (by decide)

/-- The blocks push the tags before they use them. -/
theorem deco_tags (hp : PartsOk names R H) {comp : Option String} {X : Block} {D : List Instr} (h : Deco names H T (R comp) False X D)
    (hn : ∀ i ∈ X.instrs, ∀ v ∈ i.ins ++ i.outs, Neat v) (hc : ∀ v, X.cond = some v → Neat v) :
    (∀ pre i post, D = pre ++ i :: post → ∀ v ∈ i.ins, IsTag v → isPhi i = false ∧ ∃ j ∈ pre, isPhi j = false ∧ v ∈ j.outs) ∧
    (∀ i ∈ D, ∀ v ∈ i.outs, IsTag v → isPhi i = false ∧ i.op ∉ names ++ ["JUMP", "JUMPI"] ++ terminalOps) := by
  have hnames : "PhiFunction" ∉ names ∧ "PUSH [tag]" ∉ names := ⟨fun h => hp.names _ h (by simp), fun h => hp.names _ h (by simp)⟩
  have own : ∀ i ∈ X.instrs, ∀ v ∈ i.ins ++ i.outs, ¬ IsTag v := fun i hi v hv => neat_not_tag (hn i hi v hv)
  have push : ∀ t : Nat, isPhi (pushTag t) = false := fun t => pushTag_not_phi t
  -- the last instruction is the only one with a tag among its arguments
  have last : ∀ {q : List Instr} {z : Instr}, D = q ++ [z] → (∀ i ∈ q, (∃ t, i = pushTag t) ∨ i ∈ X.instrs) → isPhi z = false → (∀ v ∈ z.ins, IsTag v → ∃ t, pushTag t ∈ q ∧ v = toString t) →
      ∀ pre i post, D = pre ++ i :: post → ∀ v ∈ i.ins, IsTag v → isPhi i = false ∧ ∃ j ∈ pre, isPhi j = false ∧ v ∈ j.outs := by
    intro q z hq h1 h2 h3 pre i post e v hv ht
    rw [hq] at e
    rcases snoc_split e with ⟨-, rfl, rfl⟩ | hi
    · obtain ⟨t, h4, rfl⟩ := h3 v hv ht
      exact ⟨h2, _, h4, push t, by simp [pushTag]⟩
    · rcases h1 i hi with ⟨t, rfl⟩ | hi
      · simp [pushTag] at hv
      · exact absurd ht (own i hi v (mem_append_left _ hv))
  have outs : ∀ {q : List Instr} {z : Instr}, D = q ++ [z] → (∀ i ∈ q, (∃ t, i = pushTag t) ∨ i ∈ X.instrs) → (∀ v ∈ z.outs, ¬ IsTag v) →
      ∀ i ∈ D, ∀ v ∈ i.outs, IsTag v → isPhi i = false ∧ i.op ∉ names ++ ["JUMP", "JUMPI"] ++ terminalOps := by
    intro q z hq h1 h2 i hi v hv ht
    rw [hq] at hi
    rcases mem_append.1 hi with hi | hi
    · rcases h1 i hi with ⟨t, rfl⟩ | hi
      · refine ⟨push t, ?_⟩
        simp only [mem_append, not_or]
        exact ⟨⟨hnames.2, by simp [pushTag]⟩, by simp [pushTag, terminalOps]⟩
      · exact absurd ht (own i hi v (mem_append_right _ hv))
    · obtain rfl := mem_singleton.1 hi
      exact absurd ht (h2 v hv)
  have plain : D = X.instrs → (∀ pre i post, D = pre ++ i :: post → ∀ v ∈ i.ins, IsTag v → isPhi i = false ∧ ∃ j ∈ pre, isPhi j = false ∧ v ∈ j.outs) ∧
      (∀ i ∈ D, ∀ v ∈ i.outs, IsTag v → isPhi i = false ∧ i.op ∉ names ++ ["JUMP", "JUMPI"] ++ terminalOps) := by
    rintro rfl
    exact ⟨fun pre i post e v hv ht => absurd ht (own i (by rw [e]; simp) v (mem_append_left _ hv)), fun i hi v hv ht => absurd ht (own i hi v (mem_append_right _ hv))⟩
  cases h with
  | exit => exact plain rfl
  | sub _ _ _ _ _ _ _ _ hraw => exact hraw.elim
  | jump y t =>
    have e : X.instrs ++ [pushTag t, ⟨"JUMP", [toString t], []⟩] = (X.instrs ++ [pushTag t]) ++ [⟨"JUMP", [toString t], []⟩] := by simp
    have q : ∀ i ∈ X.instrs ++ [pushTag t], (∃ t, i = pushTag t) ∨ i ∈ X.instrs := by
      intro i hi
      rcases mem_append.1 hi with hi | hi
      · exact Or.inr hi
      · exact Or.inl ⟨t, mem_singleton.1 hi⟩
    exact ⟨last e q (by rfl) (fun v hv _ => ⟨t, by simp, by simpa using hv⟩), outs e q (by simp)⟩
  | branch y z c t hty hj hf hcond =>
    have e : X.instrs ++ [pushTag t, ⟨"JUMPI", [toString t, c], []⟩] = (X.instrs ++ [pushTag t]) ++ [⟨"JUMPI", [toString t, c], []⟩] := by simp
    have q : ∀ i ∈ X.instrs ++ [pushTag t], (∃ t, i = pushTag t) ∨ i ∈ X.instrs := by
      intro i hi
      rcases mem_append.1 hi with hi | hi
      · exact Or.inr hi
      · exact Or.inl ⟨t, mem_singleton.1 hi⟩
    refine ⟨last e q (by rfl) ?_, outs e q (by simp)⟩
    intro v hv ht
    simp only [mem_cons, not_mem_nil, or_false] at hv
    rcases hv with rfl | rfl
    · exact ⟨t, by simp, rfl⟩
    · exact absurd ht (neat_not_tag (hc _ hcond))
  | ret o l i hty hj hf hl hi ho =>
    have hin : i ∈ X.instrs := by rw [hl]; simp
    have q : ∀ i ∈ l, (∃ t, i = pushTag t) ∨ i ∈ X.instrs := fun j hj => Or.inr (by rw [hl]; exact mem_append_left _ hj)
    refine ⟨last rfl q (not_phi hi (by decide)) ?_, outs rfl q (fun v hv => own i hin v (mem_append_right _ hv))⟩
    intro v hv ht
    rcases mem_cons.1 hv with rfl | hv
    · exfalso
      cases comp with
      | none => rw [hp.ret.1] at ho; cases ho
      | some f =>
        rcases hp.ret.2 f with h1 | h1
        · rw [h1] at ho; cases ho
        · rw [h1] at ho
          cases ho
          exact out_not_tag f ht
    · exact absurd ht (own i hin v (mem_append_left _ hv))
  | call l i n ft rt ts hts hty hl hi =>
    have hin : i ∈ X.instrs := by rw [hl]; simp
    have hphi : isPhi (tagCall ft (some rt) i) = false := not_phi rfl (fun h => hnames.1 (by rw [show i.op = _ from h] at hi; exact hi))
    obtain ⟨q, e, h1, h2⟩ := afterPhis_snoc (new := ts.map pushTag) (l := l) hphi
    have hq : ∀ j ∈ q, (∃ t, j = pushTag t) ∨ j ∈ X.instrs := by
      intro j hj
      rcases h2 j hj with h | h
      · obtain ⟨t, -, rfl⟩ := mem_map.1 h
        exact Or.inl ⟨t, rfl⟩
      · exact Or.inr (by rw [hl]; exact mem_append_left _ h)
    have hmem : ft ∈ ts ∧ rt ∈ ts := by rcases hts with rfl | rfl <;> simp
    refine ⟨last e hq hphi ?_, outs e hq (fun v hv => own i hin v (mem_append_right _ hv))⟩
    intro v hv ht
    simp only [tagCall, Option.toList_some, map_cons, map_nil, cons_append, mem_cons, mem_append, not_mem_nil, or_false] at hv
    rcases hv with rfl | hv | rfl
    · exact ⟨ft, h1 _ (mem_map.2 ⟨_, hmem.1, rfl⟩), rfl⟩
    · exact absurd ht (own i hin v (mem_append_left _ hv))
    · exact ⟨rt, h1 _ (mem_map.2 ⟨_, hmem.2, rfl⟩), rfl⟩
  | tail l i ft hty hl hi =>
    have hin : i ∈ X.instrs := by rw [hl]; simp
    have hphi : isPhi (tagCall ft none i) = false := not_phi rfl (fun h => hnames.1 (by rw [show i.op = _ from h] at hi; exact hi))
    obtain ⟨q, e, h1, h2⟩ := afterPhis_snoc (new := [pushTag ft]) (l := l) hphi
    have hq : ∀ j ∈ q, (∃ t, j = pushTag t) ∨ j ∈ X.instrs := by
      intro j hj
      rcases h2 j hj with h | h
      · exact Or.inl ⟨ft, mem_singleton.1 h⟩
      · exact Or.inr (by rw [hl]; exact mem_append_left _ h)
    refine ⟨last e hq hphi ?_, outs e hq (fun v hv => own i hin v (mem_append_right _ hv))⟩
    intro v hv ht
    simp only [tagCall, Option.toList_none, map_nil, append_nil, mem_cons] at hv
    rcases hv with rfl | hv
    · exact ⟨ft, h1 _ mem_cons_self, rfl⟩
    · exact absurd ht (own i hin v (mem_append_left _ hv))

/-- No tag is live. -/
theorem live_not_tag {G : BlockList} (h : ∀ x B, G.get x = some B → ∀ pre i post, B.instrs = pre ++ i :: post → ∀ v ∈ i.ins, IsTag v → isPhi i = false ∧ ∃ j ∈ pre, isPhi j = false ∧ v ∈ j.outs)
    {e : Bool} {b x : String} (hl : Liveness.Live (liveGraph G) e b x) : ¬ IsTag x := by
  intro ht
  have phi : ∀ {j : Instr}, isPhi j = false → j.op ≠ "PhiFunction" := fun hj e => by simp [isPhi, e] at hj
  induction hl with
  | use hu =>
    rename_i b x
    obtain ⟨pre, i, post, e, -, hx, -, hno⟩ := hu
    unfold liveGraph at e
    cases hB : G.get b with
    | none => rw [hB] at e; simp at e
    | some B =>
      rw [hB] at e
      obtain ⟨pre', l', e1, rfl, e2⟩ := map_eq_append_iff.1 (show B.instrs.map _ = _ from e)
      obtain ⟨i', post', rfl, rfl, rfl⟩ := map_eq_cons_iff.1 e2
      obtain ⟨-, j, hj, hj2, hj3⟩ := h b B hB pre' i' post' e1 x hx ht
      exact hno _ (mem_map.2 ⟨j, hj, rfl⟩) (phi hj2) hj3
  | thru _ _ ih => exact ih ht
  | phi hs ha =>
    rename_i b s x
    obtain ⟨k, i, -, hi, hop, hk, -⟩ := ha
    unfold liveGraph at hi
    cases hB : G.get s with
    | none => rw [hB] at hi; cases hi
    | some B =>
      rw [hB] at hi
      obtain ⟨j, hj, rfl⟩ := mem_map.1 hi
      obtain ⟨pre, post, e⟩ := append_of_mem hj
      exact phi (h s B hB pre j post e x (mem_of_getElem? hk) ht).1 hop
  | succ _ _ _ ih => exact ih ht

/-- No tag is on the stack between blocks. -/
theorem stack_tags (hr : Ready names R T H O' dec I main) (hF : ∀ c C, H.comp c = some C → FineComp names C)
    {ch : Option String → Choices} {junk : Option String → Bool} (hA : AnalysedBy ch junk O' A) {f : String} {F : Fn} (h : (toProg names dec main A O').fns f = some F) :
    Layout.NamesOf F.graph fun v => ¬ IsTag v := by
  obtain ⟨comp, C, C', rfl, hC, hC', hd, rfl⟩ := prog_fn hr h
  have hall : ∀ x B, C'.body.get x = some B →
      (∀ pre i post, B.instrs = pre ++ i :: post → ∀ v ∈ i.ins, IsTag v → isPhi i = false ∧ ∃ j ∈ pre, isPhi j = false ∧ v ∈ j.outs) ∧
      (∀ i ∈ B.instrs, ∀ v ∈ i.outs, IsTag v → isPhi i = false ∧ i.op ∉ names ++ ["JUMP", "JUMPI"] ++ terminalOps) := by
    intro x B hB
    obtain ⟨X, D, hX, rfl, hD⟩ := block_back hd hB
    exact deco_tags (comp := comp) hr.parts hD ((hF comp C hC).1.neat x X hX) ((hF comp C hC).1.neatCond x X hX)
  have hlive := analysis_live (lowered_analysable hr hF hC') (hA comp C' hC')
  have bTag : ∀ v : String, v.toList.head? = some 'b' → ¬ IsTag v := by
    rintro v hb ⟨t, rfl⟩
    obtain ⟨c, h1, h2⟩ := head_digit t
    rw [hb] at h1
    cases h1
    exact absurd h2 (by decide)
  have inst : ∀ {B : Layout.LBlock}, B ∈ (toFn names dec comp.isNone (A comp) C').graph.blocks → ∃ X, B = toLBlock names X ∧ C'.body.get X.id = some X := by
    intro B hB
    obtain ⟨X, hX, rfl⟩ := mem_map.1 hB
    exact ⟨X, rfl, Inline.get_of_mem hd.ids hX⟩
  refine ⟨?_, ?_, ?_, ?_, ?_, ?_, fun n => bTag _ (head_b n), bTag _ (by decide)⟩
  · intro x hx
    rw [inputs_eq (dec := dec) (A := A) hd] at hx
    rcases mem_append.1 hx with hx | hx
    · exact neat_not_tag ((hF comp C hC).2.2.1 x (mem_reverse.1 hx))
    · have ho := Option.mem_toList.1 hx
      cases comp with
      | none => rw [hr.parts.ret.1] at ho; cases ho
      | some f =>
        rcases hr.parts.ret.2 f with h1 | h1
        · rw [h1] at ho; cases ho
        · rw [h1] at ho
          cases ho
          exact out_not_tag f
  · intro b x hx
    rcases (hlive b).2 x hx with hx | ⟨i, hi, hop, hx⟩
    · exact live_not_tag (fun x B hB => (hall x B hB).1) hx
    · unfold liveGraph at hi
      cases hB : C'.body.get b with
      | none => rw [hB] at hi; cases hi
      | some B =>
        rw [hB] at hi
        obtain ⟨j, hj, rfl⟩ := mem_map.1 hi
        intro ht
        have := ((hall b B hB).2 j hj x hx ht).1
        rw [show isPhi j = true by simpa [isPhi] using hop] at this
        cases this
  · exact fun b x hx => live_not_tag (fun x B hB => (hall x B hB).1) ((hlive b).1 x hx)
  · intro B hB x hx ht
    obtain ⟨X, rfl, hX⟩ := inst hB
    have hx' : x ∈ ((splitInstr names X).map (·.outs)).getD [] := hx
    cases hs : splitInstr names X with
    | none => rw [hs] at hx'; cases hx'
    | some i =>
      rw [hs] at hx'
      obtain ⟨h1, h2⟩ := Option.filter_eq_some_iff.1 hs
      exact ((hall _ X hX).2 i (mem_of_getLast? h1) x hx' ht).2 (by simpa using h2)
  · intro B hB p hp ht
    obtain ⟨X, rfl, hX⟩ := inst hB
    obtain ⟨i, hi, rfl⟩ := mem_map.1 hp
    have hi' := mem_filter.1 hi
    cases ho : i.outs with
    | nil =>
      obtain ⟨t, hj⟩ := ht
      obtain ⟨c, h1, h2⟩ := head_digit t
      rw [← hj] at h1
      simp [ho] at h1
    | cons o os =>
      have := ((hall _ X hX).2 i hi'.1 o (by rw [ho]; simp) (by simpa [ho] using ht)).1
      rw [hi'.2] at this
      cases this
  · intro B hB p hp x hx ht
    obtain ⟨X, rfl, hX⟩ := inst hB
    obtain ⟨i, hi, rfl⟩ := mem_map.1 hp
    have hi' := mem_filter.1 hi
    obtain ⟨pre, post, e⟩ := append_of_mem hi'.1
    have := ((hall _ X hX).1 pre i post e x hx ht).1
    rw [hi'.2] at this
    cases this

/-- **C88, tags.** The program that the layout generation works on pushes tags where it uses them: no tag is on a stack with which a block starts or which it leaves. -/
theorem no_tag_between_blocks (hr : Ready names R T H O' dec I main) (hF : ∀ c C, H.comp c = some C → FineComp names C)
    {ch : Option String → Choices} {junk : Option String → Bool} (hA : AnalysedBy ch junk O' A) {f : String} {F : Fn} (h : (toProg names dec main A O').fns f = some F)
    {st : Layout.DState} (hd : Layout.drive F.graph = .ok st) {b : String} {src tgt : List String} (hs : (b, src, tgt) ∈ st.specs) (t : Nat) : toString t ∉ src ++ tgt :=
  fun hm => (Layout.layout_names (stack_tags hr hF hA h) hd hs).1 _ hm ⟨t, rfl⟩

end

end Grey.Whole
