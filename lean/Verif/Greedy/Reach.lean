/-
C105: the last phase of the alternative scheduler, src/greedy/greedy_new_version.py (`solve_permutation`), with the step that makes room (`reach_position_stack`,
`move_vars_to_memory`).
-/
import Verif.Greedy.Trim
namespace Grey.Greedy.Alternative
open List SymExec

/-! ### Model -/

/-- The loop of `move_vars_to_memory` (src/greedy/greedy_new_version.py:1526-1536) at `current_position`, with `element_in_position` and `stored_in_memory`. -/
def moveLoop (elem : Option Var) : Nat → Bool → State → Option (State × List String)
  | 0, _, st => some (st, [])
  | n + 1, stored, st =>
    if n + 1 > 16 ∨ (n + 1 = 16 ∧ stored = true) then
      (call st .set).bind fun r => (moveLoop elem n (stored || decide (st.stack.head? = elem)) r.1).map fun q => (q.1, r.2 ++ q.2)
    else some (st, [])

/-- `move_vars_to_memory` (src/greedy/greedy_new_version.py:1514-1538) for the position `fp` of the final stack. Simplification: the position in the stack is not
negative, and a position beyond the final stack is no element instead of an exception. -/
def moveVars (fp : Nat) (st : State) : Option (State × List String) :=
  moveLoop st.final[fp]? (posInStack fp st.stack st.final).toNat (st.final[fp]?.any fun v => decide (v ∈ st.inMemory)) st

/-- `reach_position_stack` (src/greedy/greedy_new_version.py:1472-1488). -/
def reach (f : Nat) (fp : Nat) (st : State) : Outcome :=
  match popUnused f st with
  | .done st1 ids1 =>
    if ids1 ≠ [] ∧ posInStack fp st1.stack st1.final ≤ 16 then .done st1 ids1
    else
      match moveVars fp st1 with
      | none => .raised
      | some (st2, ids2) => .done st2 (ids1 ++ ids2)
  | o => o

/-- `solve_permutation` (src/greedy/greedy_new_version.py:1423-1470). -/
def solvePermutation (f g : Nat) (st : State) : Outcome :=
  match (if st.maxSolved > 17 then reach f (st.maxSolved - 1) st else .done st []) with
  | .done st1 ids1 => (permLoop g st1).after ids1
  | o => o

/-! ### Proofs -/

/-- The steps of the phase: exchanges, removals, stores and loads of elements of the final stack. -/
def Step (final : List Var) (c : Call) : Prop := c = .pop ∨ c = .set ∨ (∃ k, c = .swap k) ∨ ∃ w ∈ final, c = .get w false

theorem step_final {st st' : State} {c : Call} {ids : List String} (hs : Step st.final c) (h : call st c = some (st', ids)) : st'.final = st.final := by
  rcases hs with rfl | rfl | ⟨k, rfl⟩ | ⟨w, -, rfl⟩
  · simp only [call] at h
    split at h
    · cases h
    · simp only [Option.some.injEq, Prod.mk.injEq] at h
      rw [← h.1, (oldTop_fields _ _).2.1]
  · simp only [call] at h
    split at h
    · cases h
    · simp only [Option.some.injEq, Prod.mk.injEq] at h
      rw [← h.1, (oldTop_fields _ _).2.1]
  · simp only [call] at h
    split at h
    · split at h
      · simp only [Option.some.injEq, Prod.mk.injEq] at h
        rw [← h.1, (checkSolved_fields _ _).2.1, (checkSolved_fields _ _).2.1]
      · cases h
    · cases h
  · simp only [call, Option.some.injEq, Prod.mk.injEq] at h
    rw [← h.1]
    dsimp only
    rw [(newTop_fields _ _).2.1]

/-- A part of the phase: a sequence of its steps. -/
def Part (st st' : State) (ids : List String) : Prop := ∃ cs, play st cs = some (st', ids) ∧ (∀ c ∈ cs, Step st.final c) ∧ st'.final = st.final

theorem Part.nil (st : State) : Part st st [] := ⟨[], rfl, by simp, rfl⟩

theorem Part.cons {st st1 st' : State} {c : Call} {ids1 ids : List String} (hs : Step st.final c) (h1 : call st c = some (st1, ids1)) (h : Part st1 st' ids) :
    Part st st' (ids1 ++ ids) := by
  obtain ⟨cs, g1, g2, g3⟩ := h
  have hf := step_final hs h1
  refine ⟨c :: cs, by simp [play, h1, g1], ?_, by rw [g3, hf]⟩
  intro x hx
  rcases mem_cons.1 hx with rfl | hx
  · exact hs
  · rw [← hf]; exact g2 x hx

theorem play_append : ∀ {cs cs' : List Call} {st st1 st' : State} {ids ids' : List String}, play st cs = some (st1, ids) → play st1 cs' = some (st', ids') →
    play st (cs ++ cs') = some (st', ids ++ ids')
  | [], cs', st, st1, st', ids, ids', h, h' => by
    simp only [play, Option.some.injEq, Prod.mk.injEq] at h
    obtain ⟨rfl, rfl⟩ := h
    simpa using h'
  | c :: cs, cs', st, st1, st', ids, ids', h, h' => by
    simp only [play, Option.bind_eq_some_iff, Option.map_eq_some_iff] at h
    obtain ⟨r, hr, q, hq, he⟩ := h
    simp only [Prod.mk.injEq] at he
    obtain ⟨rfl, rfl⟩ := he
    have := play_append hq h'
    simp [play, hr, this]

theorem Part.append {st st1 st' : State} {ids ids' : List String} (h : Part st st1 ids) (h' : Part st1 st' ids') : Part st st' (ids ++ ids') := by
  obtain ⟨cs, g1, g2, g3⟩ := h
  obtain ⟨cs', g1', g2', g3'⟩ := h'
  refine ⟨cs ++ cs', play_append g1 g1', ?_, by rw [g3', g3]⟩
  intro c hc
  rcases mem_append.1 hc with hc | hc
  · exact g2 c hc
  · rw [← g3]; exact g2' c hc

theorem popLoop_part : ∀ (f i : Nat) (st st' : State) (ids : List String), popLoop f i st = .done st' ids → Part st st' ids := by
  intro f
  induction f with
  | zero => intro i st st' ids h; cases h
  | succ f ih =>
    intro i st st' ids h
    unfold popLoop at h
    split at h
    · split at h
      · cases h
      · split at h
        · split at h
          · cases h
          · next st1 ids1 h1 =>
            split at h
            · cases h
            · next st2 ids2 h2 =>
              cases hp : popLoop f i st2 with
              | running => rw [hp] at h; cases h
              | raised => rw [hp] at h; cases h
              | done st3 ids3 =>
                rw [hp] at h
                simp only [Outcome.after, Outcome.done.injEq] at h
                obtain ⟨rfl, rfl⟩ := h
                have h3 := Part.cons (.inl rfl) h2 (ih i st2 st3 ids3 hp)
                split at h1
                · rw [append_assoc]
                  exact Part.cons (.inr (.inr (.inl ⟨i, rfl⟩))) h1 h3
                · simp only [Option.some.injEq, Prod.mk.injEq] at h1
                  obtain ⟨rfl, rfl⟩ := h1
                  exact h3
        · exact ih (i + 1) st st' ids h
    · simp only [Outcome.done.injEq] at h
      obtain ⟨rfl, rfl⟩ := h
      exact Part.nil st

theorem popUnused_part {f : Nat} {st st' : State} {ids : List String} (h : popUnused f st = .done st' ids) : Part st st' ids := by
  unfold popUnused at h
  split at h
  · simp only [Outcome.done.injEq] at h
    obtain ⟨rfl, rfl⟩ := h
    exact Part.nil st
  · exact popLoop_part f 0 st st' ids h

/-- The stores take elements from the top, in order, until the position is within reach. -/
theorem moveLoop_spec (elem : Option Var) : ∀ (n : Nat) (stored : Bool) (st : State), n < st.stack.length →
    ∃ st' ids moved, moveLoop elem n stored st = some (st', ids) ∧ Part st st' ids ∧ st.stack = moved ++ st'.stack ∧ st'.inMemory = moved.reverse ++ st.inMemory ∧
      n - moved.length ≤ 16 ∧ moved.length ≤ n - 15 ∧ (stored = true ∨ (∃ v ∈ moved, elem = some v) → n - moved.length ≤ 15) := by
  intro n
  induction n with
  | zero => exact fun stored st _ => ⟨st, [], [], rfl, Part.nil st, rfl, rfl, by omega, by simp, by simp⟩
  | succ n ih =>
    intro stored st hn
    unfold moveLoop
    by_cases hc : n + 1 > 16 ∨ (n + 1 = 16 ∧ stored = true)
    · rw [if_pos hc]
      cases hs : st.stack with
      | nil => rw [hs] at hn; simp at hn
      | cons v rest =>
        have hcall : call st .set = some (oldTop v { st with stack := rest, inMemory := v :: st.inMemory, copies := bump st.copies v 1 }, ["VSET(" ++ v ++ ")"]) := by
          simp only [call, hs]
        obtain ⟨o1, o2, -⟩ := oldTop_fields v { st with stack := rest, inMemory := v :: st.inMemory, copies := bump st.copies v 1 }
        have o3 : (oldTop v { st with stack := rest, inMemory := v :: st.inMemory, copies := bump st.copies v 1 }).inMemory = v :: st.inMemory := by
          unfold oldTop removeSolved
          dsimp only
          split <;> rfl
        obtain ⟨st', ids, moved, g1, g2, g3, g4, g5, g6, g7⟩ := ih (stored || decide ((v :: rest).head? = elem))
          (oldTop v { st with stack := rest, inMemory := v :: st.inMemory, copies := bump st.copies v 1 }) (by rw [o1]; rw [hs] at hn; simpa using hn)
        refine ⟨st', ["VSET(" ++ v ++ ")"] ++ ids, v :: moved, ?_, Part.cons (.inr (.inl rfl)) hcall g2, ?_, ?_, ?_, ?_, ?_⟩
        · rw [hcall]
          rw [Option.bind_some]
          dsimp only
          rw [g1]
          rfl
        · rw [o1] at g3
          dsimp only at g3
          rw [g3]
          rfl
        · rw [g4, o3]
          simp
        · simp only [length_cons]; omega
        · simp only [length_cons]; omega
        · intro h
          simp only [length_cons]
          have : n - moved.length ≤ 15 := by
            apply g7
            rcases h with h | ⟨w, hw, he⟩
            · left; simp [h]
            · rcases mem_cons.1 hw with rfl | hw
              · left; simp [he]
              · right; exact ⟨w, hw, he⟩
          omega
    · rw [if_neg hc]
      refine ⟨st, [], [], rfl, Part.nil st, rfl, rfl, by simp; omega, by simp, ?_⟩
      rintro (h | ⟨v, hv, -⟩)
      · simp only [length_nil]
        by_contra h16
        exact hc (by by_cases h1 : n + 1 > 16; exact .inl h1; exact .inr ⟨by omega, h⟩)
      · cases hv

theorem moveLoop_part (elem : Option Var) : ∀ (n : Nat) (stored : Bool) (st st' : State) (ids : List String), moveLoop elem n stored st = some (st', ids) → Part st st' ids := by
  intro n
  induction n with
  | zero =>
    intro stored st st' ids h
    simp only [moveLoop, Option.some.injEq, Prod.mk.injEq] at h
    obtain ⟨rfl, rfl⟩ := h
    exact Part.nil st
  | succ n ih =>
    intro stored st st' ids h
    unfold moveLoop at h
    split at h
    · simp only [Option.bind_eq_some_iff, Option.map_eq_some_iff] at h
      obtain ⟨⟨st1, ids1⟩, hr, ⟨st2, ids2⟩, hq, he⟩ := h
      simp only [Prod.mk.injEq] at he
      obtain ⟨rfl, rfl⟩ := he
      exact Part.cons (.inr (.inl rfl)) hr (ih _ _ _ _ hq)
    · simp only [Option.some.injEq, Prod.mk.injEq] at h
      obtain ⟨rfl, rfl⟩ := h
      exact Part.nil st

theorem moveVars_part {fp : Nat} {st st' : State} {ids : List String} (h : moveVars fp st = some (st', ids)) : Part st st' ids := moveLoop_part _ _ _ _ _ _ h

theorem permStep_part {st st1 : State} {ids : List String} (h : permStep st = some (st1, ids)) : ∃ c, Step st.final c ∧ call st c = some (st1, ids) := by
  unfold permStep at h
  split at h
  · cases h
  · split at h
    · exact ⟨_, .inl rfl, h⟩
    · split at h
      · exact ⟨_, .inr (.inr (.inl ⟨_, rfl⟩)), h⟩
      · dsimp only at h
        split at h
        · split at h
          · cases h
          · next w hw =>
            have hmem : w ∈ st.final := by
              split at hw
              · exact mem_of_getLast? hw
              · exact mem_of_getElem? hw
            split at h
            · exact ⟨_, .inr (.inr (.inr ⟨w, hmem, rfl⟩)), h⟩
            · split at h
              · exact ⟨_, .inr (.inr (.inl ⟨_, rfl⟩)), h⟩
              · cases h
        · cases h

theorem permLoop_part : ∀ (f : Nat) (st st' : State) (ids : List String), permLoop f st = .done st' ids → Part st st' ids := by
  intro f
  induction f with
  | zero => intro st st' ids h; cases h
  | succ f ih =>
    intro st st' ids h
    unfold permLoop at h
    split at h
    · simp only [Outcome.done.injEq] at h
      obtain ⟨rfl, rfl⟩ := h
      exact Part.nil st
    · split at h
      · cases h
      · next st1 ids1 h1 =>
        cases hp : permLoop f st1 with
        | running => rw [hp] at h; cases h
        | raised => rw [hp] at h; cases h
        | done st2 ids2 =>
          rw [hp] at h
          simp only [Outcome.after, Outcome.done.injEq] at h
          obtain ⟨rfl, rfl⟩ := h
          obtain ⟨c, hc, hcall⟩ := permStep_part h1
          exact Part.cons hc hcall (ih st1 st2 ids2 hp)

theorem moveVars_spec {fp : Nat} {st : State} (hfp : fp < st.final.length) (hlen : 0 < st.stack.length) :
    ∃ st' ids moved, moveVars fp st = some (st', ids) ∧ Part st st' ids ∧ st.stack = moved ++ st'.stack ∧ st'.inMemory = moved.reverse ++ st.inMemory ∧
      posInStack fp st'.stack st'.final ≤ 16 ∧ ((∃ v ∈ st'.inMemory, st.final[fp]? = some v) → posInStack fp st'.stack st'.final ≤ 15) := by
  have hn : (posInStack fp st.stack st.final).toNat < st.stack.length := by unfold posInStack; omega
  obtain ⟨st', ids, moved, g1, g2, g3, g4, g5, -, g7⟩ := moveLoop_spec st.final[fp]? (posInStack fp st.stack st.final).toNat
    (st.final[fp]?.any fun v => decide (v ∈ st.inMemory)) st hn
  have hf : st'.final = st.final := by obtain ⟨_, -, -, h⟩ := g2; exact h
  have hl : st.stack.length = moved.length + st'.stack.length := by
    have := congrArg List.length g3
    rwa [length_append] at this
  refine ⟨st', ids, moved, g1, g2, g3, g4, ?_, ?_⟩
  · rw [hf]
    unfold posInStack at g5 ⊢
    omega
  · rintro ⟨v, hv, he⟩
    have h15 : (posInStack fp st.stack st.final).toNat - moved.length ≤ 15 := by
      apply g7
      rw [g4, mem_append, mem_reverse] at hv
      rcases hv with hv | hv
      · exact .inr ⟨v, hv, he⟩
      · left; rw [he]; simpa using hv
    rw [hf]
    unfold posInStack at h15 ⊢
    omega

/-! ### C105 -/

/-- **C105.** If room has been made for a position of the final stack, then the position is within reach. -/
theorem reach_within {f fp : Nat} {st st' : State} {ids : List String} (hfp : fp < st.final.length) (hne : st.stack ≠ []) (h : reach f fp st = .done st' ids) :
    posInStack fp st'.stack st'.final ≤ 16 := by
  unfold reach at h
  split at h
  · next st1 ids1 hp =>
    split at h
    · next hc =>
      simp only [Outcome.done.injEq] at h
      obtain ⟨rfl, -⟩ := h
      exact hc.2
    · have hf : st1.final = st.final := by obtain ⟨_, -, -, hx⟩ := popUnused_part hp; exact hx
      have hl := pop_unused_left hne hp
      obtain ⟨st2, ids2, moved, g1, -, -, -, g5, -⟩ := moveVars_spec (fp := fp) (st := st1) (by rw [hf]; exact hfp) (by omega)
      rw [g1] at h
      simp only [Outcome.done.injEq] at h
      obtain ⟨rfl, -⟩ := h
      exact g5
  · next o ho => exact absurd h (ho st' ids)

/-- **C105.** Making room raises no exception if more than 16 elements are left when everything that is to be removed is taken away. -/
theorem reach_returns_partial {fp : Nat} {st : State} (hfp : fp < st.final.length) (h : 16 + ∑ v ∈ st.stack.toFinset, (-st.copies v).toNat < st.stack.length) :
    ∃ st' ids, reach (st.stack.length + 1) fp st = .done st' ids := by
  obtain ⟨st1, ids1, hp⟩ := pop_unused_returns_partial st h
  unfold reach
  rw [hp]
  dsimp only
  split
  · exact ⟨_, _, rfl⟩
  · have hf : st1.final = st.final := by obtain ⟨_, -, -, hx⟩ := popUnused_part hp; exact hx
    have hl := pop_unused_left (fun e => by rw [e] at h; simp at h) hp
    obtain ⟨st2, ids2, moved, g1, -⟩ := moveVars_spec (fp := fp) (st := st1) (by rw [hf]; exact hfp) (by omega)
    rw [g1]
    exact ⟨_, _, rfl⟩

/-- **C105.** Only the topmost elements are stored, and each of them can be loaded afterwards; if the wanted element is among the stored ones, then there is room to load it. -/
theorem stored_can_be_loaded {fp : Nat} {st : State} (hfp : fp < st.final.length) (hne : st.stack ≠ []) :
    ∃ st' ids moved, moveVars fp st = some (st', ids) ∧ st.stack = moved ++ st'.stack ∧ (∀ v ∈ moved, v ∈ st'.inMemory) ∧
      ((∃ v ∈ st'.inMemory, st.final[fp]? = some v) → posInStack fp st'.stack st'.final ≤ 15) := by
  obtain ⟨st', ids, moved, g1, -, g3, g4, -, g6⟩ := moveVars_spec hfp (length_pos_iff.2 hne)
  exact ⟨st', ids, moved, g1, g3, fun v hv => by rw [g4]; simp [hv], g6⟩

theorem part_exec {stack final : List Var} {copies : Var → Int} {st' : State} {ids : List String} (h : Part (init stack final copies) st' ids)
    (hs : ∀ v ∈ stack, Plain v) (hf : ∀ v ∈ final, Plain v) : execIds [] ids stack = some st'.stack := by
  obtain ⟨cs, g1, g2, -⟩ := h
  have key : ∀ cs : List Call, (∀ c ∈ cs, Step final c) → instrs cs = [] ∧ ∀ v ∈ retrieved cs, v ∈ final := by
    intro cs
    induction cs with
    | nil => exact fun _ => ⟨rfl, by simp [retrieved]⟩
    | cons c cs ih =>
      intro hc
      obtain ⟨i1, i2⟩ := ih fun c h => hc c (mem_cons_of_mem _ h)
      rcases hc c mem_cons_self with rfl | rfl | ⟨k, rfl⟩ | ⟨w, hw, rfl⟩
      · exact ⟨by simpa [instrs] using i1, by simpa [retrieved] using i2⟩
      · exact ⟨by simpa [instrs] using i1, by simpa [retrieved] using i2⟩
      · exact ⟨by simpa [instrs] using i1, by simpa [retrieved] using i2⟩
      · exact ⟨by simpa [instrs] using i1, by simpa [retrieved] using ⟨hw, i2⟩⟩
  obtain ⟨k1, k2⟩ := key cs g2
  exact schedule_executes_partial ⟨by simp, by simp, by simp, by simp, by simp⟩ g1 (by simp [k1]) (fun v hv => hf v (k2 v hv)) hs

/-- **C105.** If the whole phase returns, for stacks of any size, then the stack is the final one, and the validator that executes the emitted instructions arrives at it. -/
theorem phase_right {f g : Nat} {stack final : List Var} {copies : Var → Int} {st' : State} {ids : List String}
    (h : solvePermutation f g (init stack final copies) = .done st' ids) (hs : ∀ v ∈ stack, Plain v) (hf : ∀ v ∈ final, Plain v) :
    st'.stack = final ∧ execIds [] ids stack = some final := by
  have key : Part (init stack final copies) st' ids ∧ st'.stack = st'.final := by
    unfold solvePermutation at h
    split at h
    · next st1 ids1 h1 =>
      have hp1 : Part (init stack final copies) st1 ids1 := by
        split at h1
        · unfold reach at h1
          split at h1
          · next st2 ids2 hp =>
            have hpp := popUnused_part hp
            split at h1
            · simp only [Outcome.done.injEq] at h1
              obtain ⟨rfl, rfl⟩ := h1
              exact hpp
            · split at h1
              · cases h1
              · next st3 ids3 hm =>
                simp only [Outcome.done.injEq] at h1
                obtain ⟨rfl, rfl⟩ := h1
                refine hpp.append ?_
                exact moveVars_part hm
          · next o ho => exact absurd h1 (ho _ _)
        · simp only [Outcome.done.injEq] at h1
          obtain ⟨rfl, rfl⟩ := h1
          exact Part.nil _
      cases hl : permLoop g st1 with
      | running => rw [hl] at h; cases h
      | raised => rw [hl] at h; cases h
      | done st2 ids2 =>
        rw [hl] at h
        simp only [Outcome.after, Outcome.done.injEq] at h
        obtain ⟨rfl, rfl⟩ := h
        exact ⟨hp1.append (permLoop_part g st1 st2 ids2 hl), permutation_right hl⟩
    · next o ho => exact absurd h (ho _ _)
  obtain ⟨k1, k2⟩ := key
  have hfin : st'.final = final := by obtain ⟨_, -, -, hx⟩ := k1; exact hx
  rw [hfin] at k2
  exact ⟨k2, by rw [part_exec k1 hs hf, k2]⟩

/-- **C105.** When the loop begins, the recorded position is within reach, if the stack has no more elements than the final one. -/
theorem room_made_partial {f : Nat} {stack final : List Var} {copies : Var → Int} {st1 : State} {ids : List String} (hne : stack ≠ []) (hl : stack.length ≤ final.length)
    (h : (if (init stack final copies).maxSolved > 17 then reach f ((init stack final copies).maxSolved - 1) (init stack final copies)
      else .done (init stack final copies) []) = .done st1 ids) :
    posInStack (((init stack final copies).maxSolved : Int) - 1) st1.stack st1.final ≤ 16 := by
  split at h
  · next hgt =>
    obtain ⟨m, hm⟩ : ∃ m, (init stack final copies).maxSolved = m + 1 := ⟨(init stack final copies).maxSolved - 1, by omega⟩
    have hr := right_init stack final copies
    have hlt : m < final.length := ((hr.solved m).1 (hr.max m hm)).1
    rw [hm] at h ⊢
    have := reach_within (st := init stack final copies) (fp := m) hlt hne h
    rwa [show (((m + 1 : Nat) : Int) - 1) = (m : Int) by omega]
  · next hle =>
    simp only [Outcome.done.injEq] at h
    obtain ⟨rfl, -⟩ := h
    have e1 : (init stack final copies).stack = stack := rfl
    have e2 : (init stack final copies).final = final := rfl
    rw [e1, e2]
    unfold posInStack
    omega

/-! ### Examples -/

/-- One variable for each character. -/
def abc (s : String) : List Var := s.toList.map String.singleton

/-- Nineteen elements, of which the first and the last are exchanged: three elements are stored, and loaded again. -/
theorem phase_example : (solvePermutation 20 80 (init (abc "sbcdefghijklmnopqra") (abc "abcdefghijklmnopqrs") fun _ => 0)).shown =
    some (abc "abcdefghijklmnopqrs", ["VSET(s)", "VSET(b)", "VSET(c)", "VGET(s)", "SWAP16", "VGET(c)", "SWAP1", "VGET(b)", "SWAP1"]) := by decide +kernel

/-- The hypothesis of `reach_returns_partial`. -/
example : 16 + ∑ v ∈ (abc "sbcdefghijklmnopqra").toFinset, (-(0 : Int)).toNat < (abc "sbcdefghijklmnopqra").length := by decide +kernel

/-- Whether an exception is raised. -/
def Outcome.isRaised : Outcome → Bool
  | .raised => true
  | _ => false

/-- **C105, refuted.** Eighteen elements, of which the last two are exchanged, and `a` occurs twice: one `a` is stored, and it is not loaded because the other one is in
the stack, so that an assertion fails. Without the second occurrence the phase succeeds. -/
theorem phase_raises : (solvePermutation 19 80 (init (abc "abadefghijklmnoprq") (abc "abadefghijklmnopqr") fun _ => 0)).isRaised = true ∧
    (solvePermutation 19 80 (init (abc "abcdefghijklmnoprq") (abc "abcdefghijklmnopqr") fun _ => 0)).shown.map Prod.fst = some (abc "abcdefghijklmnopqr") := by
  decide +kernel

/-- **C105, refuted.** The test before the loop takes a position of the final stack for one of the stack: if the only wanted element is on top of 17 others, no room is
made, and an assertion fails. With 16 others the phase succeeds (`surplus_solved`). -/
theorem phase_raises_surplus : (solvePermutation 19 80 (init ("a" :: replicate 17 "x") ["a"] fun v => if v = "x" then -17 else 0)).isRaised = true ∧
    (solvePermutation 19 80 (init ("a" :: replicate 16 "x") ["a"] fun v => if v = "x" then -16 else 0)).shown.map Prod.fst = some ["a"] := by
  decide +kernel

end Grey.Greedy.Alternative
