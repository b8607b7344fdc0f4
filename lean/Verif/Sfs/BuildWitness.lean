/-
C50 (a specification can be realised): blocks for which the code builds a specification that no schedule meets.
-/
import Verif.Sfs.BuildTheorems
open List
namespace Grey.Sfs
open Grey.SymExec

/-- A variable that is neither in the source stack nor produced by an entry never gets on the stack, unless it is loaded. -/
theorem never_on_stack {tab : List UInstr} {v : Var} (hp : ∀ u ∈ tab, v ∉ u.outpt) (ids : List String)
    (hg : ∀ s ∈ ids, ∀ x, classify s ≠ some (.get x)) :
    ∀ {st st' : List Var}, v ∉ st → execIds tab ids st = some st' → v ∉ st' := by
  induction ids with
  | nil =>
    intro st st' h he
    simp only [execIds, Option.some.injEq] at he
    subst he; exact h
  | cons s ss ih =>
    intro st st' h he
    rw [execIds] at he
    obtain ⟨st1, h1, he⟩ := Option.bind_eq_some_iff.1 he
    refine ih (fun t ht => hg t (by simp [ht])) ?_ he
    unfold execId at h1
    obtain ⟨o, ho, h1⟩ := Option.bind_eq_some_iff.1 h1
    have hdrop : ∀ (l st st1 : List Var), v ∉ st → consume l st = some st1 → v ∉ st1 := by
      intro l
      induction l with
      | nil => intro st st1 h he; simp only [consume, Option.some.injEq] at he; subst he; exact h
      | cons x l ih =>
        intro st st1 h he
        cases st with
        | nil => simp [consume] at he
        | cons y st =>
          simp only [consume] at he
          split at he
          · exact ih _ _ (fun hm => h (by simp [hm])) he
          · simp at he
    cases o with
    | pop =>
      cases st with
      | nil => simp [execOp] at h1
      | cons x st => simp only [execOp, Option.some.injEq] at h1; subst h1; exact fun hm => h (by simp [hm])
    | swap n =>
      simp only [execOp] at h1
      split at h1
      · rename_i x y hx hy
        simp only [Option.some.injEq] at h1
        subst h1
        intro hm
        rcases List.mem_or_eq_of_mem_set hm with hm | rfl
        · rcases List.mem_or_eq_of_mem_set hm with hm | rfl
          · exact h hm
          · exact h (List.mem_of_getElem? hy)
        · exact h (List.mem_of_getElem? hx)
      · simp at h1
    | dup n =>
      simp only [execOp] at h1
      split at h1
      · simp at h1
      · obtain ⟨x, hx, rfl⟩ := Option.map_eq_some_iff.1 h1
        simp only [List.mem_cons, not_or]
        exact ⟨fun e => h (by rw [e]; exact List.mem_of_getElem? hx), h⟩
    | get x => exact absurd ho (hg s (by simp) x)
    | set x =>
      cases st with
      | nil => simp [execOp] at h1
      | cons y st =>
        simp only [execOp] at h1
        split at h1
        · simp only [Option.some.injEq] at h1; subst h1; exact fun hm => h (by simp [hm])
        · simp at h1
    | instr i =>
      simp only [execOp] at h1
      split at h1
      · simp at h1
      · rename_i u us hf
        have hu : u ∈ tab := (List.mem_filter.1 (by rw [hf]; simp : u ∈ tab.filter fun u => u.id == i)).1
        obtain ⟨st2, h2, rfl⟩ := Option.map_eq_some_iff.1 h1
        rw [List.mem_append, not_or]
        refine ⟨hp u hu, ?_⟩
        split at h2
        · unfold consumeComm at h2
          split at h2
          · split at h2
            · simp only [Option.some.injEq] at h2; subst h2; exact fun hm => h (by simp [hm])
            · simp at h2
          · simp at h2
        · exact hdrop _ _ _ h h2

/-- So an accepted schedule without loads only has target variables that are in the source or produced. -/
theorem accepted_target_available (spec : Spec) (ids : List String) (junk : Bool) (hacc : check spec ids junk = true)
    (hg : ∀ s ∈ ids, ∀ x, classify s ≠ some (.get x)) :
    ∀ v ∈ spec.tgt, v ∈ spec.src ∨ ∃ u ∈ spec.userInstrs, v ∈ u.outpt := by
  intro v hv
  apply Classical.byContradiction
  intro hno
  simp only [not_or, not_exists, not_and] at hno
  unfold check at hacc
  split at hacc
  · simp at hacc
  · rename_i st hst
    simp only [Bool.and_eq_true, decide_eq_true_eq] at hacc
    have := never_on_stack hno.2 ids hg hno.1 hst
    apply this
    have hc := hacc.1.1
    split at hc
    · rw [← hc] at hv; exact List.mem_of_mem_take hv
    · rw [hc]; exact hv

/-- … and every instruction that occurs in it gets its inputs from the source or from other instructions. -/
theorem accepted_inputs_available (spec : Spec) (ids : List String) (junk : Bool) (hacc : check spec ids junk = true)
    (hg : ∀ s ∈ ids, ∀ x, classify s ≠ some (.get x)) (u : UInstr) (hu : u ∈ spec.userInstrs)
    (hid : ∀ x ∈ spec.userInstrs, x.id = u.id → x = u) (hpl : classify u.id = some (.instr u.id)) (hc : u.commutative = false)
    (hmem : u.id ∈ ids) :
    ∀ v ∈ u.inpt, v ∈ spec.src ∨ ∃ u' ∈ spec.userInstrs, v ∈ u'.outpt := by
  intro v hv
  apply Classical.byContradiction
  intro hno
  simp only [not_or, not_exists, not_and] at hno
  unfold check at hacc
  split at hacc
  · simp at hacc
  · rename_i st hst
    clear hacc
    obtain ⟨pre, post, rfl⟩ := List.append_of_mem hmem
    have hsplit : ∀ (l l' : List String) (st : List Var), execIds spec.userInstrs (l ++ l') st =
        (execIds spec.userInstrs l st).bind (execIds spec.userInstrs l') := by
      intro l l'
      induction l with
      | nil => intro st; rfl
      | cons s l ih =>
        intro st
        simp only [List.cons_append, execIds]
        cases execId spec.userInstrs s st with
        | none => rfl
        | some x => simp only [Option.bind_some]; exact ih x
    rw [hsplit] at hst
    obtain ⟨st1, h1, h2⟩ := Option.bind_eq_some_iff.1 hst
    have hv1 := never_on_stack hno.2 pre (fun s hs => hg s (by simp [hs])) hno.1 h1
    rw [execIds] at h2
    obtain ⟨st2, h3, _⟩ := Option.bind_eq_some_iff.1 h2
    unfold execId at h3
    rw [hpl, Option.bind_some] at h3
    simp only [execOp] at h3
    split at h3
    · simp at h3
    · rename_i u' us hf
      have hm := List.mem_filter.1 (by rw [hf]; simp : u' ∈ spec.userInstrs.filter fun x => x.id == u.id)
      have := hid u' hm.1 (by simpa using hm.2)
      subst this
      rw [hc] at h3
      simp only [Bool.false_eq_true, if_false] at h3
      obtain ⟨st3, h4, _⟩ := Option.map_eq_some_iff.1 h3
      have : ∀ (l st st' : List Var), consume l st = some st' → ∀ v ∈ l, v ∈ st := by
        intro l
        induction l with
        | nil => simp
        | cons x l ih =>
          intro st st' h v hv
          cases st with
          | nil => simp [consume] at h
          | cons y st =>
            simp only [consume] at h
            split at h
            · rename_i hy
              rcases List.mem_cons.1 hv with rfl | hv
              · simp [hy]
              · exact List.mem_cons_of_mem _ (ih _ _ h v hv)
            · simp at h
      exact hv1 (this _ _ _ h4 v hv)

/-- A schedule that does not load anything from memory. -/
def NoLoads (ids : List String) : Prop := ∀ s ∈ ids, ∀ x, classify s ≠ some (.get x)

/-- The block `a = loadimmutable(X); b = loadimmutable(X); sstore(k, b)`, of which only `b` is used. -/
def dupImmutable : List Ins :=
  [⟨"pushimmutable", [], ["a"], some ["0x11"]⟩, ⟨"pushimmutable", [], ["b"], some ["0x11"]⟩,
   ⟨"sstore", ["k", "b"], [], none⟩]

/-- **C50, refutation.** The unused instructions are detected before the aliases are resolved, so the only producer of the
value is dropped: no schedule is accepted for the specification of this block. -/
theorem unused_before_aliases : ∃ built, buildSequence dupImmutable none [] ["k"] [] = some built ∧
    ∀ deps ids junk, NoLoads ids → check ⟨built.entries.map (·.instr), built.src, built.tgt, deps⟩ ids junk = false := by
  refine ⟨⟨[⟨⟨"SSTORE_0", ["k", "a"], [], false, true, "SSTORE"⟩, none⟩], ["k"], [],
    [(2, "SSTORE_0"), (0, "PUSHIMMUTABLE_0")], ["PUSHIMMUTABLE_0"]⟩, by decide +kernel, ?_⟩
  intro deps ids junk hg
  cases hacc : check _ ids junk with
  | false => rfl
  | true =>
    exfalso
    have honce : "SSTORE_0" ∈ ids := by
      have h := hacc
      unfold check at h
      split at h
      · simp at h
      · simp only [Bool.and_eq_true] at h
        have := h.2
        simp only [checkOnce, List.map_cons, List.map_nil, List.all_cons, List.all_nil, Bool.and_true] at this
        rw [if_pos (by decide +kernel)] at this
        have hc : ids.count "SSTORE_0" = 1 := by simpa using this
        exact List.count_pos_iff.1 (by omega)
    have := accepted_inputs_available _ ids junk hacc hg ⟨"SSTORE_0", ["k", "a"], [], false, true, "SSTORE"⟩
      (by simp) (by simp) (by decide +kernel) rfl honce "a" (by simp)
    simp at this

/-- Three times the constant of a memory guard, the second one used later. -/
def threeGuards : List Ins :=
  [⟨"push", [], ["a"], some ["0x80"]⟩, ⟨"push", [], ["b"], some ["0x80"]⟩, ⟨"push", [], ["c"], some ["0x80"]⟩]

/-- **C50, refutation.** The aliases form a chain that is followed for one step only: the target stack contains a variable
that nobody produces. -/
theorem alias_chain : ∃ built, buildSequence threeGuards none [] [] ["a"] = some built ∧
    ∀ deps ids junk, NoLoads ids → check ⟨built.entries.map (·.instr), built.src, built.tgt, deps⟩ ids junk = false := by
  refine ⟨⟨[], [], ["b"], [(0, "PUSH_0")], ["PUSH_0"]⟩, by decide +kernel, ?_⟩
  intro deps ids junk hg
  cases hacc : check _ ids junk with
  | false => rfl
  | true =>
    exfalso
    have := accepted_target_available _ ids junk hacc hg "b" (by simp)
    simp at this

/-- A memory guard of size zero, twice: `memoryguard(0)` and the constant `0x0`. -/
def zeroGuard : List Ins := [⟨"push", [], ["a"], some ["0x00"]⟩, ⟨"sstore", ["0x0", "a"], [], none⟩]

/-- **C50, refutation.** The two push instructions of zero get the same id (they are counted under different names), so the
two values cannot both be produced. -/
theorem zero_ids_collide : (buildSequence zeroGuard none [] [] []).map (fun b => b.entries.map fun e => (e.instr.id, e.instr.outpt)) =
    some [("PUSH0_0", ["a"]), ("PUSH0_0", ["s0"]), ("SSTORE_0", [])] := by decide +kernel

end Grey.Sfs
