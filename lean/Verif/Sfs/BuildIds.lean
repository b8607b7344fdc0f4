/-
The ids of a specification are names of operations with numbers, which cannot be confused with operations on the stack.
-/
import Verif.Sfs.BuildFrom
namespace Grey.Sfs
open SymExec

/-- A plain name, which does not begin like loads and stores of variables, and a number. -/
def PlainId (s : String) : Prop := ∃ (name : String) (k : Nat), PlainName name ∧ name.toList.head? ≠ some 'V' ∧ s = name ++ "_" ++ toString k

theorem PlainId.instr {s : String} (h : PlainId s) : classify s = some (.instr s) := by
  obtain ⟨name, k, h, -, rfl⟩ := h
  exact classify_plain h k

theorem PlainId.head {s : String} (h : PlainId s) : s.toList.head? ≠ some 'V' := by
  obtain ⟨name, k, -, h, rfl⟩ := h
  rw [String.toList_append, String.toList_append]
  cases e : name.toList with
  | nil => simp
  | cons c l =>
    rw [e] at h
    simpa using h

/-- No existing operation begins with a V. -/
theorem opcode_head {op : String} (h : Opcodes.existsOpcode op = true) : op.toList.head? ≠ some 'V' := by
  intro hv
  have hpre : ∀ p : String, p.toList <+: op.toList → p.toList ≠ [] → p.toList.head? = some 'V' := by
    intro p hp hne
    obtain ⟨r, hr⟩ := hp
    rw [← hr, List.head?_append_of_ne_nil _ hne] at hv
    exact hv
  have hnum : ∀ (p : String) (n : Nat), p.toList ≠ [] → p.toList.head? ≠ some 'V' → Opcodes.numbered p n op = none := by
    intro p n hne hp
    unfold Opcodes.numbered
    rw [List.find?_eq_none]
    intro i hi e
    refine hp (hpre p ?_ hne)
    rw [show op = p ++ toString (i + 1) by simpa using e, String.toList_append]
    exact List.prefix_append _ _
  unfold Opcodes.existsOpcode Opcodes.getOpcode at h
  cases hl : Opcodes.opcodes.lookup op with
  | some e =>
    have hm : ∃ x ∈ Opcodes.opcodes, x.1 = op := by
      have : ∀ (l : List (String × (Nat × Nat × Nat))), l.lookup op = some e → ∃ x ∈ l, x.1 = op := by
        intro l
        induction l with
        | nil => intro h; cases h
        | cons a l ih =>
          intro h
          rw [List.lookup_cons] at h
          split at h
          · rename_i he
            exact ⟨a, by simp, (by simpa using he : op = a.1).symm⟩
          · obtain ⟨x, hx, he⟩ := ih h
            exact ⟨x, List.mem_cons_of_mem _ hx, he⟩
      exact this _ hl
    obtain ⟨x, hx, rfl⟩ := hm
    have : ∀ x ∈ Opcodes.opcodes, x.1.toList.head? ≠ some 'V' := by decide +kernel
    exact this x hx hv
  | none =>
    rw [hl] at h
    dsimp only at h
    rw [hnum "DUP" 16 (by decide) (by decide), hnum "SWAP" 16 (by decide) (by decide)] at h
    split at h
    · rename_i e; rw [e] at hv; exact absurd hv (by decide +kernel)
    split at h
    · rename_i e; rw [e] at hv; exact absurd hv (by decide +kernel)
    split at h
    · rename_i e; rw [e] at hv; exact absurd hv (by decide +kernel)
    split at h
    · rename_i e; rw [e] at hv; exact absurd hv (by decide +kernel)
    split at h
    · rename_i e; exact absurd (hpre "PUSH" (List.isPrefixOf_iff_prefix.1 e) (by decide)) (by decide)
    split at h
    · rename_i e; exact absurd (hpre "tag" (List.isPrefixOf_iff_prefix.1 e) (by decide)) (by decide)
    · simp at h

/-- What is assumed about the instructions: they assign literals, or their names are those of existing operations that are no operations on the stack. -/
def KnownIns (i : Ins) : Prop := i.op = "LiteralAssignment" ∨
  (Opcodes.existsOpcode i.name = true ∧ ∀ p ∈ ["SWAP", "DUP", "VERBATIM", "VGET(", "VSET("], ¬ p.toList <:+: i.name.toList)

/-- All ids are plain. -/
def PlainIdsOf (es : List Entry) : Prop := ∀ e ∈ es, PlainId e.instr.id

theorem plainName_push : PlainName "PUSH" := by unfold PlainName; decide
theorem plainName_push0 : PlainName "PUSH0" := by unfold PlainName; decide

theorem pushEntry_plain (n idx : Nat) (outs : List String) : PlainId (pushEntry n idx outs).instr.id := by
  unfold pushEntry
  split
  · exact ⟨"PUSH0", idx, plainName_push0, by decide, by simp⟩
  · exact ⟨"PUSH", idx, plainName_push, by decide, by simp⟩

theorem plain_add {st : St} (h : PlainIdsOf st.entries) (k : String × List String) (n : String) {e : Entry} (he : PlainId e.instr.id) : PlainIdsOf (st.add k n e).entries := by
  intro e' he'
  rcases List.mem_append.1 (show e' ∈ st.entries ++ [e] from he') with h' | h'
  · exact h e' h'
  · rw [List.mem_singleton.1 h']; exact he

theorem plain_addPush {st st' : St} (h : PlainIdsOf st.entries) {k c : String} {outs : List String} (h' : st.addPush k c outs = some st') : PlainIdsOf st'.entries := by
  obtain ⟨n, -, rfl⟩ := Option.map_eq_some_iff.1 h'
  exact plain_add h _ _ (pushEntry_plain _ _ _)

theorem plain_buildArgs : ∀ {as : List String} {st : St} {r : List String × St}, PlainIdsOf st.entries → buildArgs as st = some r → PlainIdsOf r.2.entries
  | [], st, r, h, e => by
    simp only [buildArgs, Option.some.injEq] at e
    exact e ▸ h
  | a :: as, st, r, h, e => by
    simp only [buildArgs] at e
    split at e
    · split at e
      · obtain ⟨e1, -, e⟩ := Option.bind_eq_some_iff.1 e
        obtain ⟨o, -, e⟩ := Option.bind_eq_some_iff.1 e
        obtain ⟨r', hr', rfl⟩ := Option.map_eq_some_iff.1 e
        exact plain_buildArgs (r := r') h hr'
      · obtain ⟨st1, h1, e⟩ := Option.bind_eq_some_iff.1 e
        obtain ⟨r', hr', rfl⟩ := Option.map_eq_some_iff.1 e
        have h2 := plain_addPush h h1
        exact plain_buildArgs (r := r') (st := { st1 with outIdx := st1.outIdx + 1 }) h2 hr'
    · obtain ⟨r', hr', rfl⟩ := Option.map_eq_some_iff.1 e
      exact plain_buildArgs (r := r') h hr'

theorem entry_id {i : Ins} (hk : KnownIns i) (hl : i.op ≠ "LiteralAssignment") {idx : Nat} {inp : List String} {e : Entry} (h : buildEntry i idx inp = some e) :
    PlainId e.instr.id := by
  obtain ⟨hex, hp⟩ := hk.resolve_left hl
  have hpl : PlainName i.name := fun p hm => hp p (by simp only [List.mem_cons, List.not_mem_nil, or_false] at hm ⊢; rcases hm with h | h | h | h <;> simp [h])
  unfold buildEntry at h
  rw [if_neg (by rw [infixOf_iff]; exact hp "VERBATIM" (by simp)), if_pos hex] at h
  split at h
  · cases h
    exact ⟨i.name, idx, hpl, opcode_head hex, rfl⟩
  · split at h
    · obtain ⟨l, -, h⟩ := Option.bind_eq_some_iff.1 h
      obtain ⟨c, -, h⟩ := Option.bind_eq_some_iff.1 h
      obtain ⟨n, -, rfl⟩ := Option.map_eq_some_iff.1 h
      exact pushEntry_plain _ _ _
    · cases h
      exact ⟨i.name, idx, hpl, opcode_head hex, rfl⟩

theorem plain_repush {i : Ins} {p : Nat} {st st' : St} (h : PlainIdsOf st.entries) (e : repush i p st = some st') : PlainIdsOf st'.entries := by
  obtain ⟨en, hen, e⟩ := Option.bind_eq_some_iff.1 e
  obtain ⟨old, hold, e⟩ := Option.bind_eq_some_iff.1 e
  obtain ⟨new, hnew, rfl⟩ := Option.map_eq_some_iff.1 e
  have hm := List.mem_of_getElem? hen
  intro x hx
  obtain ⟨y, hy, rfl⟩ := List.mem_map.1 hx
  rcases List.mem_or_eq_of_mem_set hy with h' | h'
  · exact h y h'
  · rw [h']; exact h en hm

theorem plain_stepIns {n : Nat} {i : Ins} (hi : KnownIns i) {st st' : St} (h : PlainIdsOf st.entries) (e : stepIns n i st = some st') : PlainIdsOf st'.entries := by
  have hbuild : ∀ {st st' : St}, PlainIdsOf st.entries →
      ((if "LiteralAssignment".toList.isPrefixOf i.op.toList then
        i.inArgs.head?.bind fun c => (intHex c).map fun v =>
          st.add ("LITERALASSIGMENT", i.inArgs) (if v ≠ 0 then "PUSH" else "PUSH0") (pushEntry v (st.idx (if v ≠ 0 then "PUSH" else "PUSH0")) i.outArgs)
      else buildIns i st).bind fun st1 =>
        st1.entries.getLast?.map fun e => { st1 with positions := (n, e.instr.id) :: st1.positions }) = some st' → PlainIdsOf st'.entries := by
    intro st st' h e
    obtain ⟨st1, h1, e⟩ := Option.bind_eq_some_iff.1 e
    obtain ⟨en, -, rfl⟩ := Option.map_eq_some_iff.1 e
    show PlainIdsOf st1.entries
    split at h1
    · obtain ⟨c, -, h1⟩ := Option.bind_eq_some_iff.1 h1
      obtain ⟨v, -, rfl⟩ := Option.map_eq_some_iff.1 h1
      exact plain_add h _ _ (pushEntry_plain _ _ _)
    · rename_i hp
      obtain ⟨r, hr, h1⟩ := Option.bind_eq_some_iff.1 h1
      obtain ⟨e2, he2, h1⟩ := Option.bind_eq_some_iff.1 h1
      obtain ⟨k, -, rfl⟩ := Option.map_eq_some_iff.1 h1
      refine plain_add (plain_buildArgs h hr) _ _ (entry_id hi ?_ he2)
      intro e'
      rw [e'] at hp
      exact hp (by decide)
  have hreuse : ∀ {p : Nat} {st st' : St}, PlainIdsOf st.entries →
      (if i.op = "push" then repush i p st
      else (st.entries[p]?).bind fun e => e.instr.outpt.head?.bind fun o =>
        i.outArgs.head?.map fun x => { st with aliases := (x, o) :: st.aliases }) = some st' → PlainIdsOf st'.entries := by
    intro p st st' h e
    split at e
    · exact plain_repush h e
    · obtain ⟨en, hen, e⟩ := Option.bind_eq_some_iff.1 e
      obtain ⟨o, ho, e⟩ := Option.bind_eq_some_iff.1 e
      obtain ⟨x, hx, rfl⟩ := Option.map_eq_some_iff.1 e
      exact h
  obtain ⟨k, -, e⟩ := Option.bind_eq_some_iff.1 e
  dsimp only at e
  split at e
  · exact hbuild h e
  · split at e
    · exact hreuse h e
    · split at e
      · cases e
      · obtain ⟨en, -, e⟩ := Option.bind_eq_some_iff.1 e
        split at e
        · exact hbuild h e
        · exact hreuse (st := { st with positions := (n, en.instr.id) :: st.positions }) h e

theorem plain_buildLoop : ∀ {n : Nat} {is : List Ins} {st st' : St}, (∀ i ∈ is, KnownIns i) → PlainIdsOf st.entries → buildLoop n is st = some st' → PlainIdsOf st'.entries
  | _, [], st, st', _, h, e => by
    simp only [buildLoop, Option.some.injEq] at e
    exact e ▸ h
  | n, i :: is, st, st', hi, h, e => by
    obtain ⟨st1, h1, e⟩ := Option.bind_eq_some_iff.1 e
    exact plain_buildLoop (fun j hj => hi j (List.mem_cons_of_mem _ hj)) (plain_stepIns (hi i List.mem_cons_self) h h1) e

theorem plain_assignLoop : ∀ {d : List (String × String)} {st st' : St}, PlainIdsOf st.entries → assignLoop d st = some st' → PlainIdsOf st'.entries
  | [], st, st', h, e => by
    simp only [assignLoop, Option.some.injEq] at e
    exact e ▸ h
  | (o, c) :: d, st, st', h, e => by
    simp only [assignLoop] at e
    split at e
    · split at e
      · obtain ⟨st1, h1, e⟩ := Option.bind_eq_some_iff.1 e
        have h2 := plain_addPush h h1
        exact plain_assignLoop (st := { st1 with aliases := (o, o) :: st1.aliases }) h2 e
      · obtain ⟨en, hen, e⟩ := Option.bind_eq_some_iff.1 e
        obtain ⟨x, hx, e⟩ := Option.bind_eq_some_iff.1 e
        exact plain_assignLoop (st := { st with aliases := (o, x) :: st.aliases }) h e
    · exact plain_assignLoop h e

/-- The ids of the instructions that are handed to the scheduler are plain. -/
theorem built_plain {instrs : List Ins} {split : Option Ins} {assign : List (String × String)} {initial final : List String} {built : Built}
    {deps : List (String × String)} (hk : ∀ i ∈ instrs, KnownIns i) (hb : buildSpec instrs split assign initial final = some (built, deps)) :
    ∀ u ∈ built.entries.map (·.instr), PlainId u.id := by
  unfold buildSpec at hb
  obtain ⟨b, hseq, hb⟩ := Option.bind_eq_some_iff.1 hb
  obtain ⟨_, -, hb⟩ := Option.bind_eq_some_iff.1 hb
  obtain ⟨_, -, hb⟩ := Option.bind_eq_some_iff.1 hb
  obtain ⟨_, -, hb⟩ := Option.bind_eq_some_iff.1 hb
  obtain ⟨_, -, hb⟩ := Option.bind_eq_some_iff.1 hb
  obtain ⟨_, -, hb⟩ := Option.bind_eq_some_iff.1 hb
  obtain ⟨_, -, hb⟩ := Option.bind_eq_some_iff.1 hb
  obtain ⟨_, -, hb⟩ := Option.map_eq_some_iff.1 hb
  cases hb
  unfold buildSequence at hseq
  obtain ⟨st1, h1, hseq⟩ := Option.bind_eq_some_iff.1 hseq
  obtain ⟨st2, h2, rfl⟩ := Option.map_eq_some_iff.1 hseq
  have h := plain_assignLoop (plain_buildLoop hk (fun e he => by cases he) h1) h2
  intro u hu
  obtain ⟨e, he, rfl⟩ := List.mem_map.1 hu
  dsimp only at he
  split at he
  · exact h e (List.mem_filter.1 he).1
  · obtain ⟨e', he', rfl⟩ := List.mem_map.1 he
    exact h e' (List.mem_filter.1 he').1

end Grey.Sfs
