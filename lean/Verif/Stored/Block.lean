/-
The assembly of a block with loads and stores of variables.
-/
import Verif.Stored.Spec
import Verif.Program.FlatLemmas
namespace Grey.Stored
open List Grey.Layout Grey.Sfs Grey.SymExec Grey.Program Grey.Repair Grey.Output

/-! ### Texts -/

theorem asmAll_append (es : List Entry) : ∀ (l r : List String), asmAll es (l ++ r) = (asmAll es l).bind fun a => (asmAll es r).map (a ++ ·) := by
  intro l r
  induction l with
  | nil => cases h : asmAll es r <;> simp [asmAll, h]
  | cons s l ih =>
    rw [cons_append, asmAll, ih, asmAll]
    cases idToAsm es s with
    | none => rfl
    | some a =>
      cases asmAll es l with
      | none => rfl
      | some x => cases asmAll es r <;> rfl

theorem asmFromIds_append (es : List Entry) {l r : List String} {a b : List Asm} (h1 : asmFromIds es l = some a) (h2 : asmFromIds es r = some b) :
    asmFromIds es (l ++ r) = some (a ++ b) := by
  unfold asmFromIds at *
  rw [filter_append, asmAll_append, h1, h2]
  rfl

theorem hexDigits_chars (n : Nat) : ∀ c ∈ Opcodes.hexDigits n, c ∈ "0123456789abcdef".toList := by
  have hd : ∀ d < 16, Opcodes.hexChar d ∈ "0123456789abcdef".toList := by decide
  induction n using Nat.strongRecOn with
  | _ n ih =>
    unfold Opcodes.hexDigits
    split
    · rename_i h
      intro c hc
      simp only [mem_singleton] at hc
      subst hc
      exact hd n h
    · intro c hc
      rcases mem_append.1 hc with hc | hc
      · exact ih _ (by omega) c hc
      · simp only [mem_singleton] at hc
        subst hc
        exact hd _ (by omega)

theorem hexNumber_hexDigits (n : Nat) : hexNumber ((Opcodes.hexDigits n).map Char.toUpper) = n := by
  have hd : ∀ d < 16, "0123456789abcdef".toList.idxOf ((Opcodes.hexChar d).toUpper).toLower = d := by decide
  induction n using Nat.strongRecOn with
  | _ n ih =>
    unfold Opcodes.hexDigits
    split
    · rename_i h
      simp only [map_cons, map_nil]
      rw [show [(Opcodes.hexChar n).toUpper] = [] ++ [(Opcodes.hexChar n).toUpper] from rfl, hexNumber_append, hd n h]
      simp [hexNumber]
    · rw [map_append, map_cons, map_nil, hexNumber_append, ih _ (by omega), hd _ (by omega)]
      omega

theorem takeWhile_all {A : Type} (p : A → Bool) : ∀ (l : List A), (∀ x ∈ l, p x = true) → takeWhile p l = l := by
  intro l
  induction l with
  | nil => intro _; rfl
  | cons x l ih => intro h; rw [takeWhile_cons, h x (by simp), if_pos rfl, ih fun y hy => h y (mem_cons_of_mem _ hy)]

theorem push_text (a : Nat) : infixOf "PUSH".toList ("PUSH " ++ hexOf a).toList = true ∧ secondWord ("PUSH " ++ hexOf a) = some (hexOf a) ∧
    '_' ∉ ("PUSH " ++ hexOf a).toList ∧ ("PUSH " ++ hexOf a) ≠ "NOP" := by
  have hl : ("PUSH " ++ hexOf a).toList = 'P' :: 'U' :: 'S' :: 'H' :: ' ' :: Opcodes.hexDigits a := by
    rw [String.toList_append]
    unfold hexOf
    have e : (String.ofList (Opcodes.hexDigits a)).toList = Opcodes.hexDigits a := String.toList_ofList
    rw [e]
    rfl
  have hc := hexDigits_chars a
  refine ⟨?_, ?_, ?_, ?_⟩
  · rw [hl]
    simp [infixOf, isPrefixOf]
  · unfold secondWord
    rw [hl]
    have : takeWhile (fun c => decide (c ≠ ' ')) (Opcodes.hexDigits a) = Opcodes.hexDigits a := by
      have h1 : ∀ c ∈ "0123456789abcdef".toList, decide (c ≠ ' ') = true := by decide
      exact takeWhile_all _ _ fun c h => h1 c (hc c h)
    simp [dropWhile, hexOf]
    congr 1
    simpa using this
  · rw [hl]
    intro h
    have h1 : ∀ c ∈ "0123456789abcdef".toList, c ≠ '_' := by decide
    simp only [mem_cons] at h
    rcases h with h | h | h | h | h | h <;> first | (exact absurd h (by decide)) | exact h1 _ (hc _ h) rfl
  · intro h
    have := congrArg String.toList h
    rw [hl] at this
    simp at this

/-! ### Segments -/

section
variable {V σ : Type} {I : Interp V σ} {arity : String → Nat}

theorem SegRun.nil (st : List V) (w : σ) : SegRun I arity [] st w st w := fun code pc _ => .nil _

theorem SegRun.append {s1 s2 : List Asm} {st st1 st2 : List V} {w w1 w2 : σ} (h1 : SegRun I arity s1 st w st1 w1) (h2 : SegRun I arity s2 st1 w1 st2 w2) :
    SegRun I arity (s1 ++ s2) st w st2 w2 := by
  intro code pc h
  have g1 := h1 code pc (fun i hi => by
    have := h i (by rw [length_append]; omega)
    rwa [getElem?_append_left hi] at this)
  have g2 := h2 code (pc + s1.length) (fun i hi => by
    have := h (s1.length + i) (by rw [length_append]; omega)
    rwa [getElem?_append_right (by omega), Nat.add_sub_cancel_left, ← Nat.add_assoc] at this)
  have := frun_append g1 g2
  rwa [length_append, ← Nat.add_assoc]

theorem SegRun.one {a : Asm} {st st' : List V} {w w' : σ}
    (h : ∀ (code : List Asm) (pc : Nat), code[pc]? = some a → FStep code I arity ⟨pc, st, w⟩ (.inl ⟨pc + 1, st', w'⟩)) :
    SegRun I arity [a] st w st' w' := by
  intro code pc hc
  exact .cons (h code pc (by simpa using hc 0 (by simp))) (.nil _)

end

/-! ### Blocks -/

/-- What is needed to know about the entries of a specification. -/
structure Ctx {C : Type} (I : Interp Nat (Loc → C)) (arity : String → Nat) (es : List Entry) : Prop where
  nodup : (es.map (·.instr.id)).Nodup
  ids : ∀ e ∈ es, ∃ name k, e.instr.id = name ++ "_" ++ toString (k : Nat) ∧ PlainName name
  items : ∀ e ∈ es, ∃ a, entryAsm e = some a ∧ a.name ≠ "tag" ∧ ∀ (code : List Asm) (pc : Nat) (args s : List Nat) (w : Loc → C), code[pc]? = some a →
      args.length = e.instr.inpt.length →
      FStep code I arity ⟨pc, args ++ s, w⟩ (.inl ⟨pc + 1, (e.sem I args w).1 ++ s, (e.sem I args w).2⟩)
  comm : (semOf I es).RespectsComm (es.map (·.instr))

section
variable {C : Type} {I : Interp Nat (Loc → C)} {arity : String → Nat} {es : List Entry} (ctx : Ctx I arity es)

include ctx in
theorem plain_text {s : String} (h : '_' ∉ s.toList) : es.reverse.find? (fun e => e.instr.id == s) = none := by
  rw [find?_eq_none]
  intro e he
  obtain ⟨name, k, hk, _⟩ := ctx.ids e (mem_reverse.1 he)
  have := id_ne_plain (name := name) k h
  simpa [hk] using this

include ctx in
theorem push_item (a : Nat) : asmFromIds es ["PUSH " ++ hexOf a] = some [⟨"PUSH", some (upper (hexOf a)), none⟩] ∧
    ∀ (st : List Nat) (w : Loc → C), (∀ n, I.num n = n) → SegRun I arity [⟨"PUSH", some (upper (hexOf a)), none⟩] st w (a :: st) w := by
  obtain ⟨h1, h2, h3, h4⟩ := push_text a
  refine ⟨?_, ?_⟩
  · unfold asmFromIds
    rw [filter_cons_of_pos (by simpa using h4), filter_nil, asmAll, asmAll]
    unfold idToAsm
    rw [plain_text ctx h3]
    simp only [h1, if_true, h2]
    rfl
  · intro st w hnum
    apply SegRun.one
    intro code pc hpc
    have := FStep.push (I := I) (arity := arity) (s := st) (w := w) hpc
    have e : hexNumber (upper (hexOf a)).toList = a := by
      unfold upper hexOf
      rw [String.toList_map, String.toList_ofList]
      exact hexNumber_hexDigits a
    rwa [e, hnum] at this

include ctx in
theorem plain_item {s : String} (h : '_' ∉ s.toList) (hp : infixOf "PUSH".toList s.toList = false) (hn : s ≠ "NOP") :
    asmFromIds es [s] = some [⟨s, none, none⟩] := by
  unfold asmFromIds
  rw [filter_cons_of_pos (by simpa using hn), filter_nil, asmAll, asmAll]
  unfold idToAsm
  rw [plain_text ctx h]
  simp only [hp]
  rfl

include ctx in
/-- An id of the schedule. -/
theorem id_runs {val : Var → Nat} {s : String} {o : Op} (hc : classify s = some o) {st st' : List Var} (hex : execOp (es.map (·.instr)) o st = some st')
    (hget : ∀ v, o ≠ .get v) (hset : ∀ v, o ≠ .set v) (hdup : ∀ n, o = .dup n → n ≤ 16 ∧ s = "DUP" ++ toString n)
    (hswap : ∀ n, o = .swap n → 0 < n ∧ n ≤ 16 ∧ s = "SWAP" ++ toString n) (w w' : Loc → C)
    (hw : (∀ i, o ≠ .instr i) ∧ w' = w ∨ ∃ u ∈ es.map (·.instr), o = .instr u.id ∧
      (semOf I es u (u.inpt.map val) w).1 = u.outpt.map val ∧ w' = (semOf I es u (u.inpt.map val) w).2) :
    ∃ seg, asmFromIds es [s] = some seg ∧ seg ≠ [] ∧ (∀ a ∈ seg, a.name ≠ "tag") ∧
      ∀ rest, SegRun I arity seg (st.map val ++ rest) w (st'.map val ++ rest) w' := by
  have huniq : ((es.map (·.instr)).map (·.id)).Nodup := by rw [map_map]; exact ctx.nodup
  have hsw : o ≠ .swap 0 := fun h => by have := (hswap 0 h).1; omega
  have hstep := fun rest => step_sim (val := val) ctx.comm huniq hex hsw (fun _ => 0) (fun v hv => absurd hv (hget v)) rest w w' hw
  have hrun := fun rest => Run.cons s o [] _ _ _ hc (hstep rest) (.nil _)
  have hplain : PlainIds [s] := by
    refine ⟨?_, ?_, ?_, ?_⟩
    · intro t ht n hn
      simp only [mem_singleton] at ht
      subst ht
      rw [hc, Option.some.injEq] at hn
      exact hdup n hn
    · intro t ht n hn
      simp only [mem_singleton] at ht
      subst ht
      rw [hc, Option.some.injEq] at hn
      exact (hswap n hn).2
    · intro t ht v hv
      simp only [mem_singleton] at ht
      subst ht
      rw [hc, Option.some.injEq] at hv
      exact hget v hv
    · intro t ht v hv
      simp only [mem_singleton] at ht
      subst ht
      rw [hc, Option.some.injEq] at hv
      exact hset v hv
  have hseg := fun rest => segment_runs (I := I) (arity := arity) ctx.nodup ctx.ids ctx.items (hrun rest) hplain
  obtain ⟨seg, h1, h2, h3, _⟩ := hseg []
  refine ⟨seg, h1, ?_, h3, ?_⟩
  · intro e
    have hnop := h2.1 e s (by simp)
    subst hnop
    have : o = .instr "NOP" := by
      have : classify "NOP" = some (.instr "NOP") := by decide +kernel
      rw [this, Option.some.injEq] at hc
      exact hc.symm
    subst this
    rcases hw with ⟨h, _⟩ | ⟨u, hu, hid, _⟩
    · exact h _ rfl
    · obtain ⟨en, he, rfl⟩ := mem_map.1 hu
      obtain ⟨name, k, hk, _⟩ := ctx.ids en he
      simp only [Op.instr.injEq] at hid
      rw [hk] at hid
      exact id_ne_plain k (by decide) hid.symm
  · intro rest
    obtain ⟨seg', h1', _, _, h4⟩ := hseg rest
    rw [h1, Option.some.injEq] at h1'
    subst h1'
    exact h4

/-- The ids of the schedule among the operations. -/
def idOf : SOp → Option String
  | .id s => some s
  | _ => none

theorem good_cases {tab : List UInstr} {sem : Sem Nat (Loc → C)} {val : Var → Nat} {s : String} {ss : List String} {w wf : Loc → C}
    (h : Good tab sem val (s :: ss) w wf) {o : Op} (hc : classify s = some o) :
    ((∀ i, o ≠ .instr i) ∧ Good tab sem val ss w wf) ∨
    ∃ u ∈ tab, o = .instr u.id ∧ (sem u (u.inpt.map val) w).1 = u.outpt.map val ∧ Good tab sem val ss (sem u (u.inpt.map val) w).2 wf := by
  cases h with
  | skip _ o' _ _ _ hc' ho h =>
    rw [hc, Option.some.injEq] at hc'
    subst hc'
    exact Or.inl ⟨ho, h⟩
  | instr _ u _ _ _ hc' hu hout h =>
    rw [hc, Option.some.injEq] at hc'
    subst hc'
    exact Or.inr ⟨u, hu, rfl, hout, h⟩

theorem flow_id {tab : List UInstr} {s : String} {st : List String} {K : Facts} {y : List String × Facts}
    (h : (SOp.id s).flow tab (st, K) = some y) : ∃ o st', classify s = some o ∧ execOp tab o st = some st' ∧ y = (st', K) ∧
      (∀ v, o ≠ .get v) ∧ ∀ v, o ≠ .set v := by
  unfold SOp.flow at h
  simp only at h
  split at h
  · simp at h
  · simp at h
  · simp at h
  · rename_i o h1 h2 h3
    obtain ⟨st', he, rfl⟩ := Option.map_eq_some_iff.1 h
    exact ⟨o, st', h3, he, rfl, fun v hv => h1 v hv, fun v hv => h2 v hv⟩

variable (hnum : ∀ n, I.num n = n) (hmem : MemoryOk I arity) {cells : Nat → Prop} (hapart : ∀ a b, cells a → cells b → a ≠ b → NoOverlap a b)

theorem dup_text : ∀ n, 1 ≤ n → n ≤ 16 → '_' ∉ ("DUP" ++ toString n).toList ∧ infixOf "PUSH".toList ("DUP" ++ toString n).toList = false ∧
    ("DUP" ++ toString n) ≠ "NOP" ∧ ("DUP" ++ toString n) ≠ "tag" := by
  have : ∀ n < 17, 1 ≤ n → '_' ∉ ("DUP" ++ toString n).toList ∧ infixOf "PUSH".toList ("DUP" ++ toString n).toList = false ∧
    ("DUP" ++ toString n) ≠ "NOP" ∧ ("DUP" ++ toString n) ≠ "tag" := by decide +kernel
  intro n h1 h2
  exact this n (by omega) h1

include ctx hnum hmem hapart in
/-- The items of the operations, and what they do. `away`: the operations of the block leave the cells alone. -/
theorem flow_runs {val : Var → Nat} : ∀ (ops : List SOp) (st : List String) (K : Facts) (y : List String × Facts) (w : Loc → C) (wf : Loc → C),
    flow (es.map (·.instr)) ops (st, K) = some y → Good (es.map (·.instr)) (semOf I es) val (ops.filterMap idOf) w wf →
    (∀ s, SOp.id s ∈ ops → ∀ n, classify s = some (.dup n) → n ≤ 16 ∧ s = "DUP" ++ toString n) →
    (∀ s, SOp.id s ∈ ops → ∀ n, classify s = some (.swap n) → 0 < n ∧ n ≤ 16 ∧ s = "SWAP" ++ toString n) →
    ∃ seg, asmFromIds es (ops.flatMap SOp.texts) = some seg ∧ (seg = [] → ops.flatMap SOp.texts = []) ∧ (∀ a ∈ seg, a.name ≠ "tag") ∧
      ∀ (_ : ∀ u ∈ es.map (·.instr), ∀ w w', SameOutside cells w w' →
          (semOf I es u (u.inpt.map val) w').1 = (semOf I es u (u.inpt.map val) w).1 ∧
          SameOutside cells (semOf I es u (u.inpt.map val) w).2 (semOf I es u (u.inpt.map val) w').2 ∧
          ∀ a, cells a → ∀ l, InCell a l → (semOf I es u (u.inpt.map val) w').2 l = w' l)
        (_ : ∀ v a, SOp.store v a ∈ ops → cells a ∧ val v < 2 ^ 256) (w' : Loc → C) (_ : SameOutside cells w w')
        (_ : ∀ p ∈ K, cells p.2 ∧ Holds I w' p.2 (val p.1)) (rest : List Nat),
        ∃ wf', SegRun I arity seg (st.map val ++ rest) w' (y.1.map val ++ rest) wf' ∧ SameOutside cells wf wf' ∧
          (∀ p ∈ y.2, cells p.2 ∧ Holds I wf' p.2 (val p.1)) ∧
          ∀ a, cells a → (∀ v, SOp.store v a ∉ ops) → ∀ l, InCell a l → wf' l = w' l := by
  intro ops
  induction ops with
  | nil =>
    intro st K y w wf h hg _ _
    simp only [flow, Option.some.injEq] at h
    subst h
    cases hg
    refine ⟨[], rfl, fun _ => rfl, by simp, ?_⟩
    intro _ _ w' hs hK rest
    exact ⟨w', SegRun.nil _ _, hs, hK, fun _ _ _ _ _ => rfl⟩
  | cons o ops ih =>
    intro st K y w wf h hg hdup hswap
    rw [flow] at h
    obtain ⟨⟨st1, K1⟩, h1, h⟩ := Option.bind_eq_some_iff.1 h
    have hdup' := fun s hs => hdup s (mem_cons_of_mem _ hs)
    have hswap' := fun s hs => hswap s (mem_cons_of_mem _ hs)
    -- one operation and the others
    suffices hone : ∃ w1 seg, Good (es.map (·.instr)) (semOf I es) val (ops.filterMap idOf) w1 wf ∧ asmFromIds es o.texts = some seg ∧ seg ≠ [] ∧
        (∀ a ∈ seg, a.name ≠ "tag") ∧
        ∀ (_ : ∀ u ∈ es.map (·.instr), ∀ w w', SameOutside cells w w' →
            (semOf I es u (u.inpt.map val) w').1 = (semOf I es u (u.inpt.map val) w).1 ∧
            SameOutside cells (semOf I es u (u.inpt.map val) w).2 (semOf I es u (u.inpt.map val) w').2 ∧
            ∀ a, cells a → ∀ l, InCell a l → (semOf I es u (u.inpt.map val) w').2 l = w' l)
          (_ : ∀ v a, o = .store v a → cells a ∧ val v < 2 ^ 256) (w' : Loc → C) (_ : SameOutside cells w w')
          (_ : ∀ p ∈ K, cells p.2 ∧ Holds I w' p.2 (val p.1)) (rest : List Nat),
          ∃ w1', SegRun I arity seg (st.map val ++ rest) w' (st1.map val ++ rest) w1' ∧ SameOutside cells w1 w1' ∧
            (∀ p ∈ K1, cells p.2 ∧ Holds I w1' p.2 (val p.1)) ∧
            ∀ a, cells a → (∀ v, o ≠ .store v a) → ∀ l, InCell a l → w1' l = w' l by
      obtain ⟨w1, seg1, g1, g2, g3, g4, g5⟩ := hone
      obtain ⟨seg2, k1, k2, k3, k4⟩ := ih st1 K1 y w1 wf h g1 hdup' hswap'
      refine ⟨seg1 ++ seg2, ?_, ?_, ?_, ?_⟩
      · rw [flatMap_cons]
        exact asmFromIds_append es g2 k1
      · intro e
        exact absurd (append_eq_nil_iff.1 e).1 g3
      · intro a ha
        rcases mem_append.1 ha with ha | ha
        · exact g4 a ha
        · exact k3 a ha
      · intro haway hst w' hs hK rest
        obtain ⟨w1', r1, r2, r3, r4⟩ := g5 haway (fun v a e => hst v a (by rw [e]; simp)) w' hs hK rest
        obtain ⟨wf', q1, q2, q3, q4⟩ := k4 haway (fun v a e => hst v a (mem_cons_of_mem _ e)) w1' r2 r3 rest
        refine ⟨wf', SegRun.append r1 q1, q2, q3, ?_⟩
        intro a ha hno l hl
        rw [q4 a ha (fun v hv => hno v (mem_cons_of_mem _ hv)) l hl, r4 a ha (fun v hv => hno v (by rw [hv]; simp)) l hl]
    cases o with
    | id s =>
      obtain ⟨o, st', hc, hex, he, hget, hset⟩ := flow_id h1
      simp only [Prod.mk.injEq] at he
      obtain ⟨rfl, rfl⟩ := he
      have hd := fun n (hn : o = .dup n) => hdup s (by simp) n (hn ▸ hc)
      have hs := fun n (hn : o = .swap n) => hswap s (by simp) n (hn ▸ hc)
      rw [filterMap_cons] at hg
      simp only [idOf] at hg
      rcases good_cases hg hc with ⟨hno, hg'⟩ | ⟨u, hu, ho, hout, hg'⟩
      · obtain ⟨seg, s1, s2, s3, s4⟩ := id_runs (val := val) ctx hc hex hget hset hd hs w w (Or.inl ⟨hno, rfl⟩)
        refine ⟨w, seg, hg', s1, s2, s3, ?_⟩
        intro haway _ w' hs' hK rest
        obtain ⟨seg', s1', _, _, s4'⟩ := id_runs (val := val) ctx hc hex hget hset hd hs w' w' (Or.inl ⟨hno, rfl⟩)
        rw [s1, Option.some.injEq] at s1'
        subst s1'
        exact ⟨w', s4' rest, hs', hK, fun _ _ _ _ _ => rfl⟩
      · obtain ⟨seg, s1, s2, s3, s4⟩ := id_runs (val := val) ctx hc hex hget hset hd hs w _ (Or.inr ⟨u, hu, ho, hout, rfl⟩)
        refine ⟨_, seg, hg', s1, s2, s3, ?_⟩
        intro haway _ w' hs' hK rest
        obtain ⟨a1, a2, a3⟩ := haway u hu w w' hs'
        obtain ⟨seg', s1', _, _, s4'⟩ := id_runs (val := val) ctx hc hex hget hset hd hs w' _ (Or.inr ⟨u, hu, ho, a1.trans hout, rfl⟩)
        rw [s1, Option.some.injEq] at s1'
        subst s1'
        refine ⟨_, s4' rest, a2, ?_, fun a ha _ l hl => a3 a ha l hl⟩
        intro p hp
        obtain ⟨hpc, hph⟩ := hK p hp
        refine ⟨hpc, ?_⟩
        unfold Holds at hph ⊢
        rw [← hph]
        exact hmem.loadLocal _ _ _ (fun l hl => a3 _ hpc l hl)
    | load v a =>
      unfold SOp.flow at h1
      simp only at h1
      split at h1
      · rename_i hva
        simp only [Option.some.injEq, Prod.mk.injEq] at h1
        obtain ⟨rfl, rfl⟩ := h1
        obtain ⟨p1, p2⟩ := push_item ctx (arity := arity) a
        have m1 := plain_item ctx (s := "MLOAD") (by decide) (by decide +kernel) (by decide)
        refine ⟨w, _, hg, asmFromIds_append es p1 m1, by simp, by simp, ?_⟩
        intro _ _ w' hs hK rest
        refine ⟨w', ?_, hs, hK, fun _ _ _ _ _ => rfl⟩
        refine SegRun.append (p2 _ _ hnum) (SegRun.one ?_)
        intro code pc hpc
        have := FStep.op (I := I) (arity := arity) (args := [a]) (s := st.map val ++ rest) (w := w') hpc (by decide +kernel) (by rw [hmem.loadArity]; rfl)
        have hh := (hK _ hva).2
        unfold Holds at hh
        simp only [Option.map_none] at this
        rw [hh, hmem.loadWorld] at this
        exact this
      · simp at h1
    | store v a =>
      cases st with
      | nil => simp [SOp.flow] at h1
      | cons x st =>
        unfold SOp.flow at h1
        simp only at h1
        split at h1
        · rename_i hxv
          subst hxv
          simp only [Option.some.injEq, Prod.mk.injEq] at h1
          obtain ⟨rfl, rfl⟩ := h1
          obtain ⟨p1, p2⟩ := push_item ctx (arity := arity) a
          have m1 := plain_item ctx (s := "MSTORE") (by decide) (by decide +kernel) (by decide)
          refine ⟨w, _, hg, asmFromIds_append es p1 m1, by simp, by simp, ?_⟩
          intro _ hst w' hs hK rest
          obtain ⟨hca, hlt⟩ := hst x a rfl
          refine ⟨(I.op "MSTORE" none [a, val x] w').2, ?_, ?_, ?_, ?_⟩
          · refine SegRun.append (p2 _ _ hnum) (SegRun.one ?_)
            intro code pc hpc
            have := FStep.op (I := I) (arity := arity) (args := [a, val x]) (s := st.map val ++ rest) (w := w') hpc (by decide +kernel) (by rw [hmem.storeArity]; rfl)
            simp only [Option.map_none] at this
            rw [hmem.storeResult] at this
            exact this
          · intro l hl
            rw [hmem.storeLocal _ _ _ _ (hl a hca)]
            exact hs l hl
          · intro p hp
            rcases mem_cons.1 hp with rfl | hp
            · exact ⟨hca, hmem.loadStore _ _ _ hlt⟩
            · rw [mem_filter] at hp
              obtain ⟨hp, hne⟩ := hp
              simp only [ne_eq, decide_not, Bool.not_eq_eq_eq_not, Bool.not_true, decide_eq_false_iff_not] at hne
              obtain ⟨hpc, hph⟩ := hK p hp
              refine ⟨hpc, ?_⟩
              unfold Holds at hph ⊢
              rw [← hph]
              refine hmem.loadLocal _ _ _ (fun l hl => hmem.storeLocal _ _ _ _ (fun hl' => ?_))
              obtain ⟨k, rfl, b1, b2⟩ := hl
              obtain ⟨k', hk', b3, b4⟩ := hl'
              simp only [Loc.mem.injEq] at hk'
              subst hk'
              exact hapart _ _ hpc hca hne k ⟨⟨b1, b2⟩, b3, b4⟩
          · intro b hb hno l hl
            have hne : b ≠ a := fun e => hno x (by rw [e])
            refine hmem.storeLocal _ _ _ _ (fun hl' => ?_)
            obtain ⟨k, rfl, b1, b2⟩ := hl
            obtain ⟨k', hk', b3, b4⟩ := hl'
            simp only [Loc.mem.injEq] at hk'
            subst hk'
            exact hapart _ _ hb hca hne k ⟨⟨b1, b2⟩, b3, b4⟩
        · simp at h1
    | dup n =>
      unfold SOp.flow at h1
      simp only at h1
      split at h1
      · rename_i h16
        obtain ⟨st', hex, he⟩ := Option.map_eq_some_iff.1 h1
        simp only [Prod.mk.injEq] at he
        obtain ⟨rfl, rfl⟩ := he
        simp only [execOp] at hex
        split at hex
        · simp at hex
        · rename_i hn0
          obtain ⟨x, hx, rfl⟩ := Option.map_eq_some_iff.1 hex
          obtain ⟨d1, d2, d3, d4⟩ := dup_text n (by omega) h16
          refine ⟨w, _, hg, plain_item ctx d1 d2 d3, by simp, by simpa using d4, ?_⟩
          intro _ _ w' hs hK rest
          refine ⟨w', SegRun.one ?_, hs, hK, fun _ _ _ _ _ => rfl⟩
          intro code pc hpc
          obtain ⟨a, b, rfl, hl⟩ := split_at_get hx
          have := FStep.dup (I := I) (arity := arity) (a := a.map val) (y := val x) (b := b.map val ++ rest) (w := w') (pc := pc) (code := code) (j := none)
            (by rw [length_map]; omega) (by rw [length_map, hl, show n - 1 + 1 = n by omega]; exact hpc)
          simpa using this
      · simp at h1

end
end Grey.Stored
