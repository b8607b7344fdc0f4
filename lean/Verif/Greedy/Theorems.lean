import Verif.Greedy.Loop
import Verif.Permute.Drop
import Verif.SymExec.Schedule

/-!
# Every schedule of the greedy scheduler produces the output stack
-/

namespace Grey.Greedy
open SymExec

/-- A name that does not contain `SWAP` or `DUP`. -/
def Plain (v : String) : Prop := ¬ "SWAP".toList <:+: v.toList ∧ ¬ "DUP".toList <:+: v.toList

/-- What is assumed of a block: the ids of its instructions are unique and are not those of stack operations, commutative instructions
have two arguments, values are not named like writes, and no name contains `SWAP` or `DUP`. -/
structure BlockOk (tab : List UInstr) (src tgt : List String) : Prop where
  uniq : (tab.map (·.id)).Nodup
  two : ∀ u ∈ tab, u.commutative = true → u.inpt.length = 2
  ids : ∀ u ∈ tab, classify u.id = some (.instr u.id)
  inp : ∀ u ∈ tab, ∀ v ∈ u.inpt, isWrite v = false ∧ Plain v
  out : ∀ u ∈ tab, ∀ v ∈ u.outpt, isWrite v = false ∧ Plain v
  src : ∀ v ∈ src, Plain v
  tgt : ∀ v ∈ tgt, Plain v

/-- An infix with another first and another last letter than the text around it. -/
theorem infix_inner {p a b l : List Char} (ha : ∀ c ∈ a, p.head? ≠ some c) (hb : ∀ c ∈ b, p.getLast? ≠ some c) (hp : p ≠ [])
    (h : p <:+: a ++ l ++ b) : p <:+: l := by
  have h1 : p <:+: l ++ b := by
    clear hb
    induction a with
    | nil => simpa using h
    | cons c a ih =>
      rw [List.cons_append, List.cons_append, List.infix_cons_iff] at h
      rcases h with h | h
      · exfalso
        cases p with
        | nil => exact hp rfl
        | cons x p =>
          have := (List.cons_prefix_cons.1 h).1
          exact ha c (by simp) (by simp [this])
      · exact ih (fun c hc => ha c (List.mem_cons_of_mem _ hc)) h
  clear h ha
  induction hr : b.reverse generalizing b with
  | nil =>
    have : b = [] := by simpa using hr
    simpa [this] using h1
  | cons c b' ih =>
    have hb' : b = b'.reverse ++ [c] := by
      have := congrArg List.reverse hr
      simpa using this
    have h2 : p <:+: l ++ b'.reverse := by
      rw [hb', ← List.append_assoc, ← List.reverse_infix, List.reverse_append] at h1
      simp only [List.reverse_cons, List.reverse_nil, List.nil_append, List.singleton_append] at h1
      rw [List.infix_cons_iff] at h1
      rcases h1 with h1 | h1
      · exfalso
        cases hpr : p.reverse with
        | nil => exact hp (by simpa using hpr)
        | cons x q =>
          rw [hpr] at h1
          have := (List.cons_prefix_cons.1 h1).1
          refine hb c (by rw [hb']; simp) ?_
          have : p = q.reverse ++ [x] := by
            have := congrArg List.reverse hpr
            simpa using this
          rw [this]; simp [*]
      · rw [← List.reverse_infix]; exact h1
    exact ih (fun x hx => hb x (by rw [hb']; exact List.mem_append.2 (.inl hx))) h2 (by simp)

theorem classify_get {v : String} (h : Plain v) : classify ("VGET(" ++ v ++ ")") = some (.get v) := by
  refine classify_vget v (fun hc => h.1 ?_) (fun hc => h.2 ?_)
  · rw [String.toList_append, String.toList_append] at hc
    exact infix_inner (by decide) (by decide) (by decide) hc
  · rw [String.toList_append, String.toList_append] at hc
    exact infix_inner (by decide) (by decide) (by decide) hc

theorem classify_set {v : String} (h : Plain v) : classify ("VSET(" ++ v ++ ")") = some (.set v) := by
  refine classify_vset v (fun hc => h.1 ?_) (fun hc => h.2 ?_)
  · rw [String.toList_append, String.toList_append] at hc
    rw [show "VSET(".toList = ['V'] ++ 'S' :: 'E' :: ['T', '('] by decide, List.append_assoc, List.append_assoc,
      show "SWAP".toList = 'S' :: 'W' :: ['A', 'P'] by decide, List.singleton_append, List.infix_cons_iff, List.cons_prefix_cons] at hc
    rcases hc with hc | hc
    · exact absurd hc.1 (by decide)
    · rw [List.cons_append, List.cons_append, List.infix_cons_iff, List.cons_prefix_cons, List.cons_prefix_cons] at hc
      rcases hc with hc | hc
      · exact absurd hc.2.1 (by decide)
      · rw [← List.cons_append, ← List.append_assoc] at hc
        exact infix_inner (by decide) (by decide) (by decide) hc
  · rw [String.toList_append, String.toList_append] at hc
    exact infix_inner (by decide) (by decide) (by decide) hc

/-- The text of an instruction is read as this instruction. -/
theorem classify_render {P : Prog} (hids : ∀ u ∈ P.tab, classify u.id = some (.instr u.id)) (h : Heur) {i : Item} (hi : ItemOk P Plain i) :
    classify (i.render h).2 = some i.toOp := by
  cases i with
  | pop => exact (by decide +kernel : classify "POP" = some .pop)
  | swap k => exact classify_swap k
  | dup k => exact classify_dup k
  | vget v => exact classify_get hi
  | vset v => exact classify_set hi
  | op u => exact hids u hi

theorem execIds_render {P : Prog} (hids : ∀ u ∈ P.tab, classify u.id = some (.instr u.id)) (h : Heur) (l : List Item)
    (hl : ∀ i ∈ l, ItemOk P Plain i) (st : List Var) :
    execIds P.tab ((l.map (Item.render h)).map Prod.snd) st = execItems P.tab l st := by
  induction l generalizing st with
  | nil => rfl
  | cons i l ih =>
    simp only [List.map_cons, execIds, execItems, execId]
    rw [classify_render hids h (hl i (by simp)), Option.bind_some]
    congr 1
    funext st'
    exact ih (fun j hj => hl j (List.mem_cons_of_mem _ hj)) st'

theorem named_render {P : Prog} {h : Heur} (ht : ∀ u ∈ P.tab, h.text u ≠ "SWAP1" ∧ h.text u ≠ "DUP1") (l : List Item)
    (hl : ∀ i ∈ l, ItemOk P Plain i) : Permute.Named (l.map (Item.render h)) := by
  intro p hp
  obtain ⟨i, hi, rfl⟩ := List.mem_map.1 hp
  cases i with
  | op u =>
    have := ht u (hl _ hi)
    exact ⟨fun h => absurd h this.1, fun h => absurd h this.2⟩
  | _ => exact ⟨id, id⟩

theorem try_text {P : Prog} (hP : Ok P Plain) (hids : ∀ u ∈ P.tab, classify u.id = some (.instr u.id)) {h : Heur}
    (ht : ∀ u ∈ P.tab, h.text u ≠ "SWAP1" ∧ h.text u ≠ "DUP1") {maxSwap n : Nat} {p : Plan} {flips flips' : List String}
    {l : List Item} (hsrc : ∀ v ∈ P.src, Plain v) (hplan : ∀ o ∈ p.instr, Plain o) (hf : FlipOk P flips)
    (hl : try1 P h maxSwap n p flips = some (l, flips')) :
    execIds P.tab ((Permute.removeUseless (l.map (Item.render h))).map Prod.snd) P.src = some P.fin ∧ FlipOk P flips' := by
  obtain ⟨h1, h2, h3⟩ := try1_spec hP hsrc hplan hf hl
  refine ⟨Permute.drop_execIds (named_render ht l h2) ?_, h3⟩
  rw [execIds_render hids h l h2, h1]

/-- C74. Whenever the scheduler returns a schedule, then executing it on the input stack of the block gives its output stack, up to values
below it where they are allowed; for every plan it starts from and whatever it decides on its way. -/
theorem greedy_reaches_target {tab : List UInstr} {src tgt : List String} (hb : BlockOk tab src tgt) {deps : List (String × String)}
    {reach n : Nat} {junk : Bool} {h h' : Heur} {p p' : Plan}
    (ht : ∀ u ∈ tab, h.text u ≠ "SWAP1" ∧ h.text u ≠ "DUP1") (ht' : ∀ u ∈ tab, h'.text u ≠ "SWAP1" ∧ h'.text u ≠ "DUP1")
    (hp : ∀ o ∈ p.instr, Plain o) (hp' : ∀ o ∈ p'.instr, Plain o) {r : List (String × String)}
    (hr : greedy tab src tgt deps reach n junk h h' p p' = some r) :
    ∃ st, execIds tab (r.map Prod.snd) src = some st ∧ (if junk then st.take tgt.length = tgt else st = tgt) := by
  have hP : Ok ⟨tab, src, tgt, reach⟩ Plain := ⟨hb.uniq, hb.two, hb.inp, hb.out, hb.tgt⟩
  have hP' : Ok ⟨tab, src, tgt ++ src, reach⟩ Plain := ⟨hb.uniq, hb.two, hb.inp, hb.out, fun v hv => by
    rcases List.mem_append.1 hv with hv | hv
    · exact hb.tgt v hv
    · exact hb.src v hv⟩
  unfold greedy at hr
  dsimp only at hr
  split at hr
  · simp at hr
  rename_i l flips hl
  obtain ⟨h1, h2⟩ := try_text hP hb.ids ht hb.src hp (by intro u _ hu; simp at hu) hl
  dsimp only at h1
  split at hr
  · split at hr
    · rename_i hj
      split at hr
      · simp at hr
      rename_i l' flips' hl'
      obtain ⟨h3, -⟩ := try_text (P := ⟨tab, src, tgt ++ src, reach⟩) hP' hb.ids ht' hb.src hp' h2 hl'
      dsimp only at h3
      split at hr
      · split at hr
        · simp only [Option.some.injEq] at hr
          subst hr
          exact ⟨_, h3, by simp [hj]⟩
        · simp only [Option.some.injEq] at hr
          subst hr
          exact ⟨_, h1, by simp⟩
      · simp at hr
    · rename_i hj
      simp only [Option.some.injEq] at hr
      subst hr
      exact ⟨_, h1, by simp⟩
  · simp at hr

/-- So the check every schedule goes through afterwards (`check_execution_from_ids`) can only fail because of dependencies between
instructions or because an instruction with effects does not occur exactly once. -/
theorem greedy_check {tab : List UInstr} {src tgt : List String} (hb : BlockOk tab src tgt) {deps : List (String × String)}
    {reach n : Nat} {junk : Bool} {h h' : Heur} {p p' : Plan}
    (ht : ∀ u ∈ tab, h.text u ≠ "SWAP1" ∧ h.text u ≠ "DUP1") (ht' : ∀ u ∈ tab, h'.text u ≠ "SWAP1" ∧ h'.text u ≠ "DUP1")
    (hp : ∀ o ∈ p.instr, Plain o) (hp' : ∀ o ∈ p'.instr, Plain o) {r : List (String × String)}
    (hr : greedy tab src tgt deps reach n junk h h' p p' = some r) :
    check ⟨tab, src, tgt, deps⟩ (r.map Prod.snd) junk = true ↔
      checkDeps (r.map Prod.snd) deps = some true ∧ checkOnce tab (r.map Prod.snd) = true := by
  obtain ⟨st, h1, h2⟩ := greedy_reaches_target hb ht ht' hp hp' hr
  unfold check
  rw [h1]
  cases junk <;> simp_all

/-- Every `SWAP` and `DUP` of a schedule is within reach. -/
theorem greedy_within_reach {tab : List UInstr} {src tgt : List String} {deps : List (String × String)} {reach n : Nat} {junk : Bool}
    {h h' : Heur} {p p' : Plan} {r : List (String × String)} (hr : greedy tab src tgt deps reach n junk h h' p p' = some r)
    (k : Nat) (hk : "SWAP" ++ toString k ∈ r.map Prod.snd ∨ "DUP" ++ toString k ∈ r.map Prod.snd) : 1 ≤ k ∧ k ≤ reach := by
  -- from the check to every id of the result
  have key : ∀ l : List (String × String), checkDupSwap reach (l.map Prod.snd) = true →
      ("SWAP" ++ toString k ∈ (Permute.removeUseless l).map Prod.snd ∨ "DUP" ++ toString k ∈ (Permute.removeUseless l).map Prod.snd) →
      1 ≤ k ∧ k ≤ reach := by
    intro l hl hk
    have hsub : ∀ s, s ∈ (Permute.removeUseless l).map Prod.snd → s ∈ l.map Prod.snd := by
      intro s hs
      obtain ⟨q, hq, rfl⟩ := List.mem_map.1 hs
      rcases Permute.dropFrom_mem [] l q (List.mem_reverse.1 hq) with h | h
      · simp at h
      · exact List.mem_map_of_mem h
    unfold checkDupSwap at hl
    rw [List.all_eq_true] at hl
    rcases hk with hk | hk
    · have hc := classify_swap k
      have := hl _ (hsub _ hk)
      have hS : ("SWAP" ++ toString k).toList = "SWAP".toList ++ (toString k).toList := String.toList_append
      have hi : infixOf "SWAP".toList ("SWAP" ++ toString k).toList = true := by
        rw [hS]; exact infixOf_of_prefix (List.prefix_append _ _)
      rw [if_pos hi, hS] at this
      have hd : ("SWAP".toList ++ (toString k).toList).drop 4 = (toString k).toList := by
        rw [show "SWAP".toList = ['S', 'W', 'A', 'P'] by decide]; rfl
      rw [hd, parseNat_toString] at this
      simpa using this
    · have := hl _ (hsub _ hk)
      have hS : ("DUP" ++ toString k).toList = "DUP".toList ++ (toString k).toList := String.toList_append
      have hi : infixOf "DUP".toList ("DUP" ++ toString k).toList = true := by
        rw [hS]; exact infixOf_of_prefix (List.prefix_append _ _)
      have hn : ¬ infixOf "SWAP".toList ("DUP" ++ toString k).toList = true := by
        intro hc
        have hcl := classify_dup k
        unfold classify at hcl
        dsimp only at hcl
        rw [if_neg, if_pos hc] at hcl
        · cases hq : parseNat (("DUP" ++ toString k).toList.drop 4) <;> rw [hq] at hcl <;> simp at hcl
        · intro he
          rw [he] at hi
          revert hi
          decide
      rw [if_neg hn, if_pos hi, hS] at this
      have hd : ("DUP".toList ++ (toString k).toList).drop 3 = (toString k).toList := by
        rw [show "DUP".toList = ['D', 'U', 'P'] by decide]; rfl
      rw [hd, parseNat_toString] at this
      simpa using this
  unfold greedy at hr
  dsimp only at hr
  split at hr
  · simp at hr
  split at hr
  · rename_i hck
    rw [Bool.and_eq_true] at hck
    split at hr
    · split at hr
      · simp at hr
      · split at hr
        · rename_i hck'
          split at hr
          · simp only [Option.some.injEq] at hr
            subst hr
            exact key _ hck' hk
          · simp only [Option.some.injEq] at hr
            subst hr
            exact key _ hck.2 hk
        · simp at hr
    · simp only [Option.some.injEq] at hr
      subst hr
      exact key _ hck.2 hk
  · simp at hr

/-! ### Concrete blocks -/

/-- `v1 = s0 + v0; v2 = v1 * s1; sstore(v2, v1)` -/
def exTab : List UInstr :=
  [⟨"PUSH_0", [], ["v0"], false, false, "PUSH"⟩, ⟨"ADD_0", ["s0", "v0"], ["v1"], true, false, "ADD"⟩,
   ⟨"MUL_0", ["v1", "s1"], ["v2"], true, false, "MUL"⟩, ⟨"SSTORE_0", ["v2", "v1"], [], false, true, "SSTORE"⟩]

def exHeur : Heur where
  text u := u.disasm
  small _ := true
  hasValue v := v == "v0"
  intValue _ := false
  tooFar _ _ := 0
  tooLong _ _ := false
  neededOne _ _ _ := 0
  computed _ _ := false
  funcDeps _ := []

def exPlan (needed : List (String × Int)) : Plan := ⟨["SSTORE_0"], [], needed, []⟩

instance (v : String) : Decidable (Plain v) := inferInstanceAs (Decidable (_ ∧ _))

theorem exTab_ok {src tgt : List String} (hs : ∀ v ∈ src, Plain v) (ht : ∀ v ∈ tgt, Plain v) : BlockOk exTab src tgt :=
  ⟨by decide +kernel, by decide +kernel, by decide +kernel, by decide +kernel, by decide +kernel, hs, ht⟩

-- a block without values below its output stack
example : greedy exTab ["s0", "s1"] ["v1"] [] 16 100 false exHeur exHeur (exPlan [("s0", 1), ("s1", 1), ("v1", 3)]) (exPlan []) =
    some [("PUSH", "PUSH_0"), ("ADD", "ADD_0"), ("DUP1", "DUP1"), ("SWAP2", "SWAP2"), ("DUP2", "DUP2"), ("MUL", "MUL_0"),
      ("SSTORE", "SSTORE_0")] := by decide +kernel

example : ∃ r st, greedy exTab ["s0", "s1"] ["v1"] [] 16 100 false exHeur exHeur (exPlan [("s0", 1), ("s1", 1), ("v1", 3)]) (exPlan []) =
    some r ∧ execIds exTab (r.map Prod.snd) ["s0", "s1"] = some st ∧ st = ["v1"] := by
  cases hr : greedy exTab ["s0", "s1"] ["v1"] [] 16 100 false exHeur exHeur (exPlan [("s0", 1), ("s1", 1), ("v1", 3)]) (exPlan []) with
  | none => exact absurd hr (by decide +kernel)
  | some r =>
    obtain ⟨st, h1, h2⟩ := greedy_reaches_target (exTab_ok (by decide +kernel) (by decide +kernel)) (by decide +kernel) (by decide +kernel)
      (by decide +kernel) (by decide +kernel) hr
    exact ⟨r, st, rfl, h1, h2⟩

-- the second try leaves values below the output stack and is shorter
example : greedy exTab ["s0", "s1", "s2", "s3"] ["v1"] [] 16 100 true exHeur exHeur (exPlan [("s0", 1), ("s1", 1), ("v1", 3)])
    (exPlan [("s0", 2), ("s1", 2), ("v1", 3), ("s2", 1), ("s3", 1)]) =
    some [("DUP1", "DUP1"), ("PUSH", "PUSH_0"), ("ADD", "ADD_0"), ("DUP1", "DUP1"), ("DUP4", "DUP4"), ("DUP2", "DUP2"),
      ("MUL", "MUL_0"), ("SSTORE", "SSTORE_0")] := by decide +kernel

-- values out of reach
example : greedy exTab ["s2", "s3", "s4", "s0", "s1"] ["s2", "v1", "s3", "s4"] [] 3 100 false exHeur exHeur
    (exPlan [("s0", 1), ("s1", 1), ("v1", 3), ("s2", 1), ("s3", 1), ("s4", 1)]) (exPlan []) =
    some [("SWAP1", "SWAP1"), ("SWAP3", "SWAP3"), ("PUSH", "PUSH_0"), ("ADD", "ADD_0"), ("DUP1", "DUP1"),
      ("VGET(s1)", "VGET(s1)"), ("DUP2", "DUP2"), ("MUL", "MUL_0"), ("SSTORE", "SSTORE_0"), ("SWAP2", "SWAP2"),
      ("VSET(s4)", "VSET(s4)"), ("SWAP3", "SWAP3"), ("POP", "POP"), ("SWAP2", "SWAP2"), ("VGET(s4)", "VGET(s4)"),
      ("SWAP3", "SWAP3"), ("SWAP1", "SWAP1")] := by decide +kernel

end Grey.Greedy
