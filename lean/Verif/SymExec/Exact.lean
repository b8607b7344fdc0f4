/-
C47: the validator accepts every schedule that is right.
-/
import Verif.SymExec.Theorems
namespace Grey.SymExec

/-! ### Specification -/

/-- What an instruction of a schedule does with the names on the stack (top first) when all its operands are where it
expects them. -/
inductive NameStep (tab : List UInstr) : Op → List Var → List Var → Prop
  | pop (x s) : NameStep tab .pop (x :: s) s
  | swap (x a y b) : NameStep tab (.swap (a.length + 1)) (x :: (a ++ y :: b)) (y :: (a ++ x :: b))
  | dup (a y b) : NameStep tab (.dup (a.length + 1)) (a ++ y :: b) (y :: (a ++ y :: b))
  | get (v s) : NameStep tab (.get v) s (v :: s)
  | set (v s) : NameStep tab (.set v) (v :: s) s
  | instr (u s) (hu : u ∈ tab) : NameStep tab (.instr u.id) (u.inpt ++ s) (u.outpt ++ s)
  | instrComm (u s) (hu : u ∈ tab) (hc : u.commutative = true) : NameStep tab (.instr u.id) (u.inpt.reverse ++ s) (u.outpt ++ s)

/-- A whole schedule. -/
inductive NameRun (tab : List UInstr) : List String → List Var → List Var → Prop
  | nil (s) : NameRun tab [] s s
  | cons (i o is s s' s'') (hc : classify i = some o) (h : NameStep tab o s s') (hs : NameRun tab is s' s'') : NameRun tab (i :: is) s s''

/-! ### Proofs -/

theorem find_unique {tab : List UInstr} (huniq : (tab.map (·.id)).Nodup) {u : UInstr} (hu : u ∈ tab) :
    tab.filter (fun x => x.id == u.id) = [u] := by
  induction tab with
  | nil => cases hu
  | cons x xs ih =>
    rw [List.map_cons, List.nodup_cons] at huniq
    rcases List.mem_cons.1 hu with rfl | hu
    · rw [List.filter_cons_of_pos (by simp)]
      congr 1
      rw [List.filter_eq_nil_iff]
      intro y hy h
      exact huniq.1 (List.mem_map.2 ⟨y, hy, by simpa using h⟩)
    · rw [List.filter_cons_of_neg]
      · exact ih huniq.2 hu
      · intro h
        exact huniq.1 (List.mem_map.2 ⟨u, hu, by simpa using (beq_iff_eq.1 h).symm⟩)

theorem consume_append : ∀ (xs st : List Var), consume xs (xs ++ st) = some st
  | [], st => rfl
  | x :: xs, st => by simp [consume, consume_append xs st]

theorem consume_some : ∀ {xs st st' : List Var}, consume xs st = some st' → st = xs ++ st'
  | [], st, st', h => by simpa [consume] using h
  | _ :: _, [], _, h => by simp [consume] at h
  | x :: xs, s :: st, st', h => by
    rw [consume] at h
    split at h
    · rename_i he
      rw [he, consume_some h]; rfl
    · cases h

theorem swap_eq (x y : Var) (a b : List Var) : (((x :: (a ++ y :: b)).set 0 y).set (a.length + 1) x) = y :: (a ++ x :: b) := by
  simp

theorem execOp_iff {tab : List UInstr} (huniq : (tab.map (·.id)).Nodup) (htwo : ∀ u ∈ tab, u.commutative = true → u.inpt.length = 2)
    {o : Op} (hsw : o ≠ .swap 0) (st st' : List Var) : execOp tab o st = some st' ↔ NameStep tab o st st' := by
  constructor
  · intro h
    cases o with
    | pop =>
      cases st with
      | nil => cases h
      | cons x st => cases h; exact .pop _ _
    | swap n =>
      simp only [execOp] at h
      split at h
      · rename_i x y hx hy
        cases h
        cases n with
        | zero => exact absurd rfl hsw
        | succ n =>
          cases st with
          | nil => cases hx
          | cons z st =>
            simp only [List.getElem?_cons_zero, Option.some.injEq] at hx
            subst hx
            rw [List.getElem?_cons_succ] at hy
            obtain ⟨hn, rfl⟩ := List.getElem?_eq_some_iff.1 hy
            have he : st = st.take n ++ st[n] :: st.drop (n + 1) := by
              rw [← List.drop_eq_getElem_cons, List.take_append_drop]
            have hl : (st.take n).length = n := by rw [List.length_take]; omega
            have := NameStep.swap (tab := tab) z (st.take n) st[n] (st.drop (n + 1))
            rw [hl, ← he, ← swap_eq, hl, ← he] at this
            exact this
      · cases h
    | dup n =>
      simp only [execOp] at h
      split at h
      · cases h
      · rename_i hn0
        obtain ⟨y, hy, rfl⟩ := Option.map_eq_some_iff.1 h
        obtain ⟨hn, rfl⟩ := List.getElem?_eq_some_iff.1 hy
        have he : st = st.take (n - 1) ++ st[n - 1] :: st.drop (n - 1 + 1) := by
          rw [← List.drop_eq_getElem_cons, List.take_append_drop]
        have hl : (st.take (n - 1)).length = n - 1 := by rw [List.length_take]; omega
        have := NameStep.dup (tab := tab) (st.take (n - 1)) st[n - 1] (st.drop (n - 1 + 1))
        rw [hl, ← he] at this
        rwa [show n - 1 + 1 = n by omega] at this
    | get v => simp only [execOp, Option.some.injEq] at h; subst h; exact .get _ _
    | set v =>
      cases st with
      | nil => cases h
      | cons x st =>
        simp only [execOp] at h
        split at h
        · rename_i he; cases h; rw [he]; exact .set _ _
        · cases h
    | instr i =>
      simp only [execOp] at h
      split at h
      · cases h
      · rename_i u us hf
        have hmem : u ∈ tab.filter (fun u => u.id == i) := by rw [hf]; exact List.mem_cons_self
        obtain ⟨hut, hi⟩ := List.mem_filter.1 hmem
        have hi : u.id = i := by simpa using hi
        subst hi
        obtain ⟨s, hs, rfl⟩ := Option.map_eq_some_iff.1 h
        split at hs
        · rename_i hcm
          unfold consumeComm at hs
          split at hs
          · rename_i a b s0 s1 st hab
            split at hs
            · rename_i hor
              cases hs
              rcases hor with ⟨rfl, rfl⟩ | ⟨rfl, rfl⟩
              · have := NameStep.instr (tab := tab) u s hut
                rw [hab] at this
                exact this
              · have := NameStep.instrComm (tab := tab) u s hut hcm
                rw [hab] at this
                exact this
            · cases hs
          · cases hs
        · rw [consume_some hs]
          exact .instr u s hut
  · intro h
    cases h with
    | pop => rfl
    | swap x a y b =>
      simp only [execOp]
      have h1 : (x :: (a ++ y :: b))[0]? = some x := rfl
      have h2 : (x :: (a ++ y :: b))[a.length + 1]? = some y := by simp
      rw [h1, h2]
      simp
    | dup a y b => simp [execOp]
    | get => rfl
    | set v s => simp [execOp]
    | instr u s hu =>
      simp only [execOp]
      rw [find_unique huniq hu]
      simp only
      split
      · rename_i hc
        have h2 := htwo u hu hc
        match hi : u.inpt, h2 with
        | [a, b], _ => simp [consumeComm]
      · rw [consume_append]; rfl
    | instrComm u s hu hc =>
      simp only [execOp]
      rw [find_unique huniq hu]
      simp only [hc, if_true]
      have h2 := htwo u hu hc
      match hi : u.inpt, h2 with
      | [a, b], _ => simp [consumeComm]

theorem execIds_iff {tab : List UInstr} (huniq : (tab.map (·.id)).Nodup) (htwo : ∀ u ∈ tab, u.commutative = true → u.inpt.length = 2)
    {ids : List String} (hsw : ∀ s ∈ ids, classify s ≠ some (.swap 0)) (st st' : List Var) :
    execIds tab ids st = some st' ↔ NameRun tab ids st st' := by
  induction ids generalizing st with
  | nil =>
    rw [execIds, Option.some.injEq]
    exact ⟨fun h => h ▸ .nil _, fun h => by cases h; rfl⟩
  | cons i is ih =>
    rw [execIds]
    constructor
    · intro h
      obtain ⟨s1, h1, h2⟩ := Option.bind_eq_some_iff.1 h
      unfold execId at h1
      obtain ⟨o, hc, h1⟩ := Option.bind_eq_some_iff.1 h1
      have ho : o ≠ .swap 0 := fun e => hsw i List.mem_cons_self (e ▸ hc)
      exact .cons i o is st s1 st' hc ((execOp_iff huniq htwo ho _ _).1 h1) ((ih (fun s hs => hsw s (List.mem_cons_of_mem _ hs)) _).1 h2)
    · intro h
      cases h with
      | cons _ o _ _ s1 _ hc h1 h2 =>
        have ho : o ≠ .swap 0 := fun e => hsw i List.mem_cons_self (e ▸ hc)
        unfold execId
        rw [hc, Option.bind_some, (execOp_iff huniq htwo ho _ _).2 h1, Option.bind_some]
        exact (ih (fun s hs => hsw s (List.mem_cons_of_mem _ hs)) _).2 h2

theorem checkOnce_iff (tab : List UInstr) (ids : List String) :
    checkOnce tab ids = true ↔ ∀ u ∈ tab, u.storage = true → ¬ "GAS".toList <:+: u.disasm.toList → ids.count u.id = 1 := by
  unfold checkOnce
  rw [List.all_eq_true]
  constructor
  · intro h u hu hs hg
    have h := h u hu
    have hg' : infixOf "GAS".toList u.disasm.toList = false := by
      cases h : infixOf "GAS".toList u.disasm.toList with
      | false => rfl
      | true => exact absurd (infixOf_iff.1 h) hg
    rw [hs, hg'] at h
    simpa using h
  · intro h u hu
    split
    · rename_i hc
      simp only [Bool.and_eq_true, Bool.not_eq_true'] at hc
      rw [beq_iff_eq]
      refine h u hu hc.1 fun hi => ?_
      rw [infixOf_iff.2 hi] at hc
      cases hc.2
    · rfl

/-- **C47.** For a specification with distinct ids whose commutative instructions have two operands, and a schedule without `SWAP0`: the
validator accepts the schedule if and only if each instruction finds its operands (in any order, for a commutative one), the last stack is the
target (or begins with the target, if junk is allowed), all dependences are respected and all effects happen once. So it never rejects a right
schedule, and never accepts another one. -/
theorem accepts_exactly_right_schedules (spec : Spec) (ids : List String) (junk : Bool)
    (huniq : (spec.userInstrs.map (·.id)).Nodup) (htwo : ∀ u ∈ spec.userInstrs, u.commutative = true → u.inpt.length = 2)
    (hsw : ∀ s ∈ ids, classify s ≠ some (.swap 0)) :
    check spec ids junk = true ↔
      (∃ last, NameRun spec.userInstrs ids spec.src last ∧ (if junk then spec.tgt <+: last else last = spec.tgt)) ∧
      (∀ d ∈ spec.deps, d.1 ∈ ids ∧ d.2 ∈ ids ∧ ∀ i j : Nat, ids[i]? = some d.1 → ids[j]? = some d.2 → i < j) ∧
      (∀ u ∈ spec.userInstrs, u.storage = true → ¬ "GAS".toList <:+: u.disasm.toList → ids.count u.id = 1) := by
  have htake : ∀ (t l : List Var), l.take t.length = t ↔ t <+: l := by
    intro t l
    rw [List.prefix_iff_eq_take]
    exact ⟨fun h => h.symm, fun h => h.symm⟩
  unfold check
  rw [← check_deps_exact, ← checkOnce_iff]
  cases hex : execIds spec.userInstrs ids spec.src with
  | none =>
    simp only [Bool.false_eq_true, false_iff]
    rintro ⟨⟨last, hr, _⟩, _⟩
    rw [(execIds_iff huniq htwo hsw _ _).2 hr] at hex
    cases hex
  | some st =>
    simp only [Bool.and_eq_true, decide_eq_true_eq, beq_iff_eq]
    constructor
    · rintro ⟨⟨h1, h2⟩, h3⟩
      refine ⟨⟨st, (execIds_iff huniq htwo hsw _ _).1 hex, ?_⟩, h2, h3⟩
      cases junk with
      | true => simpa [htake] using h1
      | false => simpa using h1
    · rintro ⟨⟨last, hr, h1⟩, h2, h3⟩
      rw [(execIds_iff huniq htwo hsw _ _).2 hr] at hex
      cases hex
      refine ⟨⟨?_, h2⟩, h3⟩
      cases junk with
      | true => simpa [htake] using h1
      | false => simpa using h1

/-- The hypotheses are met. -/
example : (demo.userInstrs.map (·.id)).Nodup ∧ (∀ u ∈ demo.userInstrs, u.commutative = true → u.inpt.length = 2) ∧
    (∀ s ∈ demoIds, classify s ≠ some (.swap 0)) ∧ check demo demoIds false = true ∧
    check demo ["ADD_0", "PUSH_0", "MSTORE_0"] false = false := by decide

end Grey.SymExec
