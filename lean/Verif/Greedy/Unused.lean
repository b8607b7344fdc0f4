/-
C102: the removal of unused elements in the alternative scheduler, src/greedy/greedy_new_version.py (`pop_unused_elements`).
-/
import Verif.Greedy.Alternative
import Mathlib.Algebra.BigOperators.Group.Finset.Basic
namespace Grey.Greedy.Alternative
open List SymExec

/-! ### Model -/

/-- How a loop with a bounded number of iterations ends. -/
inductive Outcome where
  | running
  | raised
  | done (st : State) (ids : List String)

/-- Instructions before a result. -/
def Outcome.after (ids : List String) : Outcome → Outcome
  | .done st is => .done st (ids ++ is)
  | o => o

/-- The loop of `pop_unused_elements` (src/greedy/greedy_new_version.py:1501-1510) at `current_idx = i`, with at most `f` iterations. `raised`: `IndexError`, or an
exception of `swap` or `pop`. -/
def popLoop : Nat → Nat → State → Outcome
  | 0, _, _ => .running
  | f + 1, i, st =>
    if i ≤ min 16 st.stack.length then
      match st.stack[i]? with
      | none => .raised
      | some v =>
        if st.copies v < 0 then
          match (if i > 0 then call st (.swap i) else some (st, [])) with
          | none => .raised
          | some (st1, ids1) =>
            match call st1 .pop with
            | none => .raised
            | some (st2, ids2) => (popLoop f i st2).after (ids1 ++ ids2)
        else popLoop f (i + 1) st
    else .done st []

/-- `pop_unused_elements` (src/greedy/greedy_new_version.py:1490-1512). -/
def popUnused (f : Nat) (st : State) : Outcome := if st.stack = [] then .done st [] else popLoop f 0 st

/-! ### Proofs -/

/-- One removal: the stack has the elements above and below, the needs change for the removed variable only. -/
theorem removal {st st1 st2 : State} {i : Nat} {v : Var} {ids1 ids2 : List String} (hv : st.stack[i]? = some v)
    (h1 : (if i > 0 then call st (.swap i) else some (st, [])) = some (st1, ids1)) (h2 : call st1 .pop = some (st2, ids2)) :
    st2.stack.length + 1 = st.stack.length ∧ st2.copies = bump st.copies v 1 ∧
      ∀ k, k < i → ∀ w, st2.stack[k]? = some w → ∃ k' < i, st.stack[k']? = some w := by
  have hil : i < st.stack.length := (List.getElem?_eq_some_iff.1 hv).1
  -- the state before the removal
  have key : st1.stack[0]? = some v ∧ st1.stack.length = st.stack.length ∧ st1.copies = st.copies ∧
      ∀ k, k < i → ∀ w, st1.stack[k + 1]? = some w → ∃ k' < i, st.stack[k']? = some w := by
    by_cases hi : i > 0
    · rw [if_pos hi] at h1
      simp only [call, hv] at h1
      split at h1
      · next a b h0 hx =>
        cases hx
        rw [if_pos hi] at h1
        simp only [Option.some.injEq, Prod.mk.injEq] at h1
        obtain ⟨rfl, -⟩ := h1
        rw [(checkSolved_fields _ _).1, (checkSolved_fields _ _).1, (checkSolved_fields _ _).2.2.1, (checkSolved_fields _ _).2.2.1]
        refine ⟨?_, by simp, rfl, fun k hk w hw => ?_⟩
        · dsimp only
          rw [getElem?_set_ne (by omega), getElem?_set_self (by omega)]
        · dsimp only at hw
          by_cases e : k + 1 = i
          · rw [e, getElem?_set_self (by simpa using hil)] at hw
            cases hw
            exact ⟨0, by omega, h0⟩
          · rw [getElem?_set_ne (by omega), getElem?_set_ne (by omega)] at hw
            exact ⟨k + 1, by omega, hw⟩
      · cases h1
    · rw [if_neg hi] at h1
      simp only [Option.some.injEq, Prod.mk.injEq] at h1
      obtain ⟨rfl, -⟩ := h1
      have : i = 0 := by omega
      subst this
      exact ⟨hv, rfl, rfl, fun k hk => absurd hk (by omega)⟩
  obtain ⟨k0, k1, k2, k3⟩ := key
  simp only [call] at h2
  split at h2
  · cases h2
  · next u rest hs =>
    simp only [Option.some.injEq, Prod.mk.injEq] at h2
    obtain ⟨rfl, -⟩ := h2
    rw [(oldTop_fields _ _).1, (oldTop_fields _ _).2.2.1]
    rw [hs] at k0 k1 k3
    simp only [getElem?_cons_zero, Option.some.injEq] at k0
    subst k0
    exact ⟨k1, by rw [k2], fun k hk w hw => k3 k hk w hw⟩

theorem popLoop_stops : ∀ (f i : Nat) (st : State), i ≤ st.stack.length → st.stack.length - i < f → popLoop f i st ≠ .running := by
  intro f
  induction f with
  | zero => intro i st _ h; omega
  | succ f ih =>
    intro i st hi hf
    unfold popLoop
    split
    · split
      · exact fun h => nomatch h
      · next v hv =>
        have hil : i < st.stack.length := (List.getElem?_eq_some_iff.1 hv).1
        split
        · split
          · exact fun h => nomatch h
          · next st1 ids1 h1 =>
            split
            · exact fun h => nomatch h
            · next st2 ids2 h2 =>
              obtain ⟨r1, -, -⟩ := removal hv h1 h2
              have := ih i st2 (by omega) (by omega)
              intro he
              apply this
              cases hp : popLoop f i st2 with
              | running => rfl
              | raised => rw [hp] at he; cases he
              | done _ _ => rw [hp] at he; cases he
        · exact ih (i + 1) st (by omega) (by omega)
    · exact fun h => nomatch h

theorem popLoop_done : ∀ (f i : Nat) (st st' : State) (ids : List String), i ≤ st.stack.length → i ≤ 17 →
    (∀ k < i, ∀ w, st.stack[k]? = some w → 0 ≤ st.copies w) → popLoop f i st = .done st' ids →
    16 < st'.stack.length ∧ st'.stack.length ≤ st.stack.length ∧ ∀ k ≤ 16, ∀ w, st'.stack[k]? = some w → 0 ≤ st'.copies w := by
  intro f
  induction f with
  | zero => intro i st st' ids _ _ _ h; cases h
  | succ f ih =>
    intro i st st' ids hi h17 hinv h
    unfold popLoop at h
    split at h
    · next hle =>
      split at h
      · cases h
      · next v hv =>
        have hil : i < st.stack.length := (List.getElem?_eq_some_iff.1 hv).1
        split at h
        · next hneg =>
          split at h
          · cases h
          · next st1 ids1 h1 =>
            split at h
            · cases h
            · next st2 ids2 h2 =>
              obtain ⟨r1, r2, r3⟩ := removal hv h1 h2
              cases hp : popLoop f i st2 with
              | running => rw [hp] at h; cases h
              | raised => rw [hp] at h; cases h
              | done st3 ids3 =>
                rw [hp] at h
                simp only [Outcome.after, Outcome.done.injEq] at h
                obtain ⟨rfl, -⟩ := h
                have hinv' : ∀ k < i, ∀ w, st2.stack[k]? = some w → 0 ≤ st2.copies w := by
                  intro k hk w hw
                  obtain ⟨k', hk', hw'⟩ := r3 k hk w hw
                  have := hinv k' hk' w hw'
                  rw [r2]
                  simp only [bump]
                  split <;> omega
                obtain ⟨g1, g2, g3⟩ := ih i st2 st3 ids3 (by omega) h17 hinv' hp
                exact ⟨g1, by omega, g3⟩
        · next hneg =>
          refine ih (i + 1) st st' ids (by omega) (by omega) ?_ h
          intro k hk w hw
          by_cases e : k = i
          · subst e
            rw [hv] at hw
            cases hw
            omega
          · exact hinv k (by omega) w hw
    · next hgt =>
      simp only [Outcome.done.injEq] at h
      obtain ⟨rfl, -⟩ := h
      exact ⟨by omega, Nat.le_refl _, fun k hk w hw => hinv k (by omega) w hw⟩

theorem removal_mem {st st1 st2 : State} {i : Nat} {v : Var} {ids1 ids2 : List String} (hv : st.stack[i]? = some v)
    (h1 : (if i > 0 then call st (.swap i) else some (st, [])) = some (st1, ids1)) (h2 : call st1 .pop = some (st2, ids2)) : ∀ w ∈ st2.stack, w ∈ st.stack := by
  have key : ∀ w ∈ st1.stack, w ∈ st.stack := by
    by_cases hi : i > 0
    · rw [if_pos hi] at h1
      simp only [call, hv] at h1
      split at h1
      · next a b h0 hx =>
        cases hx
        rw [if_pos hi] at h1
        simp only [Option.some.injEq, Prod.mk.injEq] at h1
        obtain ⟨rfl, -⟩ := h1
        rw [(checkSolved_fields _ _).1, (checkSolved_fields _ _).1]
        intro w hw
        rcases mem_or_eq_of_mem_set hw with hw | rfl
        · rcases mem_or_eq_of_mem_set hw with hw | rfl
          · exact hw
          · exact mem_of_getElem? hv
        · exact mem_of_getElem? h0
      · cases h1
    · rw [if_neg hi] at h1
      simp only [Option.some.injEq, Prod.mk.injEq] at h1
      obtain ⟨rfl, -⟩ := h1
      exact fun w hw => hw
  simp only [call] at h2
  split at h2
  · cases h2
  · next u rest hs =>
    simp only [Option.some.injEq, Prod.mk.injEq] at h2
    obtain ⟨rfl, -⟩ := h2
    rw [(oldTop_fields _ _).1]
    intro w hw
    exact key w (by rw [hs]; exact mem_cons_of_mem _ hw)

/-- Exchanging with an element that is there, and removing the top, raise no exception. -/
theorem swap_some {st : State} {i : Nat} {v : Var} (hv : st.stack[i]? = some v) : ∃ r, (if i > 0 then call st (.swap i) else some (st, [])) = some r ∧ r.1.stack ≠ [] := by
  have hil : i < st.stack.length := (List.getElem?_eq_some_iff.1 hv).1
  by_cases hi : i > 0
  · rw [if_pos hi]
    have h0 : st.stack[0]? = some st.stack[0] := getElem?_eq_getElem (by omega)
    simp only [call, hv, h0, if_pos hi]
    refine ⟨_, rfl, ?_⟩
    rw [(checkSolved_fields _ _).1, (checkSolved_fields _ _).1]
    intro he
    have := congrArg List.length he
    simp at this
    rw [this] at hil
    simp at hil
  · rw [if_neg hi]
    refine ⟨_, rfl, ?_⟩
    rintro he
    rw [he] at hil
    simp at hil

theorem pop_some {st : State} (h : st.stack ≠ []) : ∃ r, call st .pop = some r := by
  simp only [call]
  split
  · next he => exact absurd he h
  · exact ⟨_, rfl⟩

theorem popLoop_raised : ∀ (f i : Nat) (st : State) (vs : Finset Var), i ≤ st.stack.length → (∀ w ∈ st.stack, w ∈ vs) → popLoop f i st = .raised →
    st.stack.length ≤ 16 + ∑ w ∈ vs, (-st.copies w).toNat := by
  intro f
  induction f with
  | zero => intro i st vs _ _ h; cases h
  | succ f ih =>
    intro i st vs hi hvs h
    unfold popLoop at h
    split at h
    · next hle =>
      split at h
      · next hn =>
        have := List.getElem?_eq_none_iff.1 hn
        omega
      · next v hv =>
        have hil : i < st.stack.length := (List.getElem?_eq_some_iff.1 hv).1
        split at h
        · next hneg =>
          obtain ⟨⟨st1, ids1⟩, h1, hne⟩ := swap_some hv
          obtain ⟨⟨st2, ids2⟩, h2⟩ := pop_some hne
          rw [h1] at h
          dsimp only at h h2
          rw [h2] at h
          dsimp only at h
          obtain ⟨r1, r2, -⟩ := removal hv h1 h2
          have hp : popLoop f i st2 = .raised := by
            cases hp : popLoop f i st2 with
            | running => rw [hp] at h; cases h
            | raised => rfl
            | done _ _ => rw [hp] at h; cases h
          have := ih i st2 vs (by omega) (fun w hw => hvs w (removal_mem hv h1 h2 w hw)) hp
          have hmem : v ∈ vs := hvs v (mem_of_getElem? hv)
          rw [← Finset.add_sum_erase vs _ hmem] at this ⊢
          have he : ∑ w ∈ vs.erase v, (-st2.copies w).toNat = ∑ w ∈ vs.erase v, (-st.copies w).toNat := by
            refine Finset.sum_congr rfl fun w hw => ?_
            rw [r2]
            simp [bump, (Finset.mem_erase.1 hw).1]
          have hv2 : st2.copies v = st.copies v + 1 := by rw [r2]; simp [bump]
          rw [he, hv2] at this
          omega
        · exact ih (i + 1) st vs (by omega) hvs h
    · cases h

theorem popLoop_play : ∀ (f i : Nat) (st st' : State) (ids : List String), popLoop f i st = .done st' ids → ∃ cs, play st cs = some (st', ids) ∧ instrs cs = [] ∧ retrieved cs = [] := by
  intro f
  induction f with
  | zero => intro i st st' ids h; cases h
  | succ f ih =>
    intro i st st' ids h
    unfold popLoop at h
    split at h
    · split at h
      · cases h
      · split at h
        · split at h
          · cases h
          · next st1 ids1 h1 =>
            split at h
            · cases h
            · next st2 ids2 h2 =>
              cases hp : popLoop f i st2 with
              | running => rw [hp] at h; cases h
              | raised => rw [hp] at h; cases h
              | done st3 ids3 =>
                rw [hp] at h
                simp only [Outcome.after, Outcome.done.injEq] at h
                obtain ⟨rfl, rfl⟩ := h
                obtain ⟨cs, hcs, hi, hg⟩ := ih i st2 st3 ids3 hp
                split at h1
                · refine ⟨.swap i :: .pop :: cs, ?_, by simpa [instrs] using hi, by simpa [retrieved] using hg⟩
                  simp [play, h1, h2, hcs]
                · simp only [Option.some.injEq, Prod.mk.injEq] at h1
                  obtain ⟨rfl, rfl⟩ := h1
                  refine ⟨.pop :: cs, ?_, by simpa [instrs] using hi, by simpa [retrieved] using hg⟩
                  simp [play, h2, hcs]
        · exact ih (i + 1) st st' ids h
    · simp only [Outcome.done.injEq] at h
      obtain ⟨rfl, rfl⟩ := h
      exact ⟨[], rfl, rfl, rfl⟩

/-! ### C102 -/

/-- **C102.** The removal ends after at most one iteration more than there are elements. -/
theorem pop_unused_stops (st : State) : popUnused (st.stack.length + 1) st ≠ .running := by
  unfold popUnused
  split
  · exact fun h => nomatch h
  · exact popLoop_stops _ 0 st (by omega) (by omega)

/-- **C102.** If the removal returns, then none of the 17 topmost elements is to be removed. -/
theorem pop_unused_removes {st st' : State} {f : Nat} {ids : List String} (h : popUnused f st = .done st' ids) :
    ∀ k ≤ 16, ∀ w, st'.stack[k]? = some w → 0 ≤ st'.copies w := by
  unfold popUnused at h
  split at h
  · next he =>
    simp only [Outcome.done.injEq] at h
    obtain ⟨rfl, -⟩ := h
    intro k _ w hw
    rw [he] at hw
    simp at hw
  · exact (popLoop_done f 0 st st' ids (by omega) (by omega) (fun k hk => absurd hk (by omega)) h).2.2

/-- **C102, refuted.** The removal raises an exception whenever 1 to 16 elements are in the stack, or are left in it: it looks at the element below the last one. -/
theorem pop_unused_raises (st : State) (hne : st.stack ≠ []) (hlen : st.stack.length ≤ 16) : popUnused (st.stack.length + 1) st = .raised := by
  have hs := pop_unused_stops st
  cases h : popUnused (st.stack.length + 1) st with
  | running => exact absurd h hs
  | raised => rfl
  | done st' ids =>
    unfold popUnused at h
    rw [if_neg hne] at h
    obtain ⟨g1, g2, -⟩ := popLoop_done _ 0 st st' ids (by omega) (by omega) (fun k hk => absurd hk (by omega)) h
    omega

/-- **C102.** If the removal returns and there was an element, then more than 16 are left. -/
theorem pop_unused_left {st st' : State} {f : Nat} {ids : List String} (hne : st.stack ≠ []) (h : popUnused f st = .done st' ids) : 16 < st'.stack.length := by
  unfold popUnused at h
  rw [if_neg hne] at h
  exact (popLoop_done f 0 st st' ids (by omega) (by omega) (fun k hk => absurd hk (by omega)) h).1

/-- **C102.** The removal returns if more than 16 elements are left when everything that is to be removed is taken away. -/
theorem pop_unused_returns_partial (st : State) (h : 16 + ∑ v ∈ st.stack.toFinset, (-st.copies v).toNat < st.stack.length) :
    ∃ st' ids, popUnused (st.stack.length + 1) st = .done st' ids := by
  have hs := pop_unused_stops st
  cases hp : popUnused (st.stack.length + 1) st with
  | running => exact absurd hp hs
  | done st' ids => exact ⟨st', ids, rfl⟩
  | raised =>
    unfold popUnused at hp
    split at hp
    · cases hp
    · have := popLoop_raised _ 0 st st.stack.toFinset (by omega) (fun w hw => by simpa using hw) hp
      omega

/-- **C102.** The removal is a sequence of exchanges and pops: what holds for every sequence of steps (C101) holds for it. -/
theorem pop_unused_plays {st st' : State} {f : Nat} {ids : List String} (h : popUnused f st = .done st' ids) :
    ∃ cs, play st cs = some (st', ids) ∧ instrs cs = [] ∧ retrieved cs = [] := by
  unfold popUnused at h
  split at h
  · simp only [Outcome.done.injEq] at h
    obtain ⟨rfl, rfl⟩ := h
    exact ⟨[], rfl, rfl, rfl⟩
  · exact popLoop_play f 0 st st' ids h

/-- **C102.** The validator that executes the emitted instructions arrives at the stack of the state. -/
theorem pop_unused_executes {st' : State} {f : Nat} {ids : List String} {stack final : List Var} {copies : Var → Int}
    (h : popUnused f (init stack final copies) = .done st' ids) (hs : ∀ v ∈ stack, Plain v) : execIds [] ids stack = some st'.stack := by
  obtain ⟨cs, hcs, hi, hg⟩ := pop_unused_plays h
  exact schedule_executes_partial ⟨by simp, by simp, by simp, by simp, by simp⟩ hcs (by simp [hi]) (by simp [hg]) hs

/-! ### Examples -/

/-- What a run shows. -/
def Outcome.shown : Outcome → Option (List Var × List String)
  | .done st ids => some (st.stack, ids)
  | _ => none

/-- Twenty elements, of which two are not needed. -/
def twenty : State := init ["a", "x", "b", "c", "d", "x", "e", "f", "g", "h", "i", "j", "k", "l", "m", "n", "o", "p", "q", "r"] [] fun v => if v = "x" then -2 else 0

/-- They are removed. -/
theorem twenty_removed : (popUnused 21 twenty).shown =
    some (["b", "c", "d", "a", "e", "f", "g", "h", "i", "j", "k", "l", "m", "n", "o", "p", "q", "r"], ["SWAP1", "POP", "SWAP4", "POP"]) := by decide +kernel

example : 16 + ∑ v ∈ twenty.stack.toFinset, (-twenty.copies v).toNat < twenty.stack.length := by decide +kernel

/-- Three elements, of which one is not needed: nothing is returned. -/
theorem three_raise : popUnused 4 (init ["a", "x", "b"] ["a", "b"] fun v => if v = "x" then -1 else 0) = .raised :=
  pop_unused_raises _ (by decide +kernel) (by decide +kernel)

end Grey.Greedy.Alternative
