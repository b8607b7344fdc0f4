/-
C103: the last phase of the alternative scheduler, src/greedy/greedy_new_version.py (`solve_permutation`): the elements are put into their places.
-/
import Verif.Greedy.Unused
namespace Grey.Greedy.Alternative
open List SymExec

/-! ### Model -/

/-- `_compute_var2pos` (src/greedy/greedy_new_version.py:672-682) at one variable: its positions in the final stack, in ascending order. -/
def positions (v : Var) (final : List Var) : List Nat := (range final.length).filter fun p => decide (final[p]? = some v)

/-- `idx_wrt_cstack` (src/greedy/greedy_new_version.py:28-32, 198-203). -/
def posInStack (idx : Int) (stack final : List Var) : Int := idx - final.length + stack.length

/-- The first position that `_available_positions` (src/greedy/greedy_new_version.py:919-939) yields. -/
def available (v : Var) (st : State) : Option Nat :=
  ((((positions v st.final).reverse.map fun p => posInStack (p : Nat) st.stack st.final).takeWhile fun k : Int => decide (0 ≤ k)).find? fun k : Int =>
    decide (k ≤ (min st.stack.length 16 : Nat)) && decide (st.stack[k.toNat]? ≠ some v)).map Int.toNat

/-- One iteration of the loop of `solve_permutation` (src/greedy/greedy_new_version.py:1440-1468). `none`: an assertion fails or an exception is raised. With
`max_solved = 0` the index of the final stack is -1. -/
def permStep (st : State) : Option (State × List String) :=
  match st.stack with
  | [] => none
  | top :: _ =>
    if st.copies top < 0 then call st .pop
    else
      match available top st with
      | some k => call st (.swap k)
      | none =>
        let p := posInStack ((st.maxSolved : Int) - 1) st.stack st.final
        if p ≤ 16 then
          match (if st.maxSolved = 0 then st.final.getLast? else st.final[st.maxSolved - 1]?) with
          | none => none
          | some w => if w ∉ st.stack then call st (.get w false) else if 0 < p then call st (.swap p.toNat) else none
        else none

/-- The loop of `solve_permutation` (src/greedy/greedy_new_version.py:1439-1470), with at most `f` tests of its condition. Simplification: without the step before the
loop (1436-1437), which is only taken if `max_solved - 1` is more than 16. -/
def permLoop : Nat → State → Outcome
  | 0, _ => .running
  | f + 1, st =>
    if st.stack = st.final then .done st []
    else
      match permStep st with
      | none => .raised
      | some (st', ids) => (permLoop f st').after ids

/-! ### Proofs -/

theorem count_places (v : Var) : ∀ (s f : List Var), s.length = f.length → (∀ p : Nat, f[p]? = some v → s[p]? = some v) →
    f.count v ≤ s.count v ∧ (s.count v = f.count v → ∀ j : Nat, s[j]? = some v → f[j]? = some v) := by
  intro s
  induction s with
  | nil =>
    intro f hl _
    cases f with
    | nil => simp
    | cons => simp at hl
  | cons a s ih =>
    intro f hl h
    cases f with
    | nil => simp at hl
    | cons b f =>
      obtain ⟨i1, i2⟩ := ih f (by simpa using hl) fun p hp => by simpa using h (p + 1) (by simpa using hp)
      have h0 : b = v → a = v := fun e => by simpa using h 0 (by simp [e])
      rw [count_cons, count_cons]
      by_cases hb : b = v
      · have ha := h0 hb
        simp only [hb, ha, beq_self_eq_true, if_true]
        refine ⟨by omega, fun e j hj => ?_⟩
        cases j with
        | zero => simp
        | succ j => simpa using i2 (by omega) j (by simpa using hj)
      · by_cases ha : a = v
        · simp only [ha, beq_self_eq_true, if_true, beq_iff_eq, hb, if_false]
          exact ⟨by omega, fun e => by omega⟩
        · simp only [beq_iff_eq, ha, hb, if_false]
          refine ⟨by omega, fun e j hj => ?_⟩
          cases j with
          | zero => simp [ha] at hj
          | succ j => simpa using i2 (by omega) j (by simpa using hj)

/-- If all places of a variable hold it, then it is nowhere else. -/
theorem places {s f : List Var} {v : Var} (hp : s.Perm f) (h : ∀ p : Nat, f[p]? = some v → s[p]? = some v) {j : Nat} (hj : s[j]? = some v) : f[j]? = some v :=
  (count_places v s f hp.length_eq h).2 (hp.count_eq v) j hj

theorem available_some {v : Var} {st : State} {k : Nat} (hl : st.stack.length = st.final.length) (h : available v st = some k) :
    st.final[k]? = some v ∧ st.stack[k]? ≠ some v := by
  unfold available at h
  rw [Option.map_eq_some_iff] at h
  obtain ⟨z, hz, rfl⟩ := h
  have h1 := find?_some hz
  have h2 := (takeWhile_sublist _).subset (mem_of_find?_eq_some hz)
  rw [mem_map] at h2
  obtain ⟨p, hp, rfl⟩ := h2
  have e : (posInStack p st.stack st.final).toNat = p := by unfold posInStack; omega
  rw [e] at h1 ⊢
  simp only [Bool.and_eq_true, decide_eq_true_eq] at h1
  refine ⟨?_, h1.2⟩
  simpa [positions] using (mem_filter.1 (mem_reverse.1 hp)).2

theorem takeWhile_all {α : Type} {q : α → Bool} : ∀ {l : List α}, (∀ x ∈ l, q x = true) → l.takeWhile q = l
  | [], _ => rfl
  | a :: l, h => by rw [takeWhile_cons, if_pos (h a mem_cons_self), takeWhile_all fun x hx => h x (mem_cons_of_mem _ hx)]

theorem available_none {v : Var} {st : State} (hl : st.stack.length = st.final.length) (h17 : st.final.length ≤ 17) (h : available v st = none) :
    ∀ p : Nat, st.final[p]? = some v → st.stack[p]? = some v := by
  intro p hp
  unfold available at h
  rw [Option.map_eq_none_iff, find?_eq_none] at h
  have hpl : p < st.final.length := (List.getElem?_eq_some_iff.1 hp).1
  have hpos : ∀ q : Nat, posInStack q st.stack st.final = q := fun q => by unfold posInStack; omega
  have htw : (((positions v st.final).reverse.map fun p => posInStack (p : Nat) st.stack st.final).takeWhile fun k : Int => decide (0 ≤ k)) =
      (positions v st.final).reverse.map fun p => posInStack (p : Nat) st.stack st.final := by
    refine takeWhile_all ?_
    intro z hz
    obtain ⟨q, -, rfl⟩ := mem_map.1 hz
    rw [hpos]
    simp
  rw [htw] at h
  have := h (posInStack p st.stack st.final) (mem_map.2 ⟨p, mem_reverse.2 (mem_filter.2 ⟨by simpa using hpl, by simpa using hp⟩), rfl⟩)
  rw [hpos] at this
  simp only [Int.toNat_natCast, Bool.and_eq_true, decide_eq_true_eq, not_and, not_not] at this
  exact this (by omega)

theorem misplaced_same {s f : List Var} (hl : s.length = f.length) {j : Nat} : Misplaced s f j ↔ j < f.length ∧ s[j]? ≠ f[j]? := by
  unfold Misplaced
  refine and_congr_right fun hj => ?_
  rw [getElem?_reverse (by omega)]
  have : s.length - 1 - (f.length - 1 - j) = j := by omega
  rw [this]

/-- The record of the deepest misplaced position is not empty as long as something is misplaced. -/
def Known (st : State) : Prop := st.maxSolved = 0 → st.notSolved = []

theorem Known.add {st : State} (h : Known st) (i : Nat) : Known (addSolved i st) := by
  unfold addSolved
  split
  · next hi =>
    intro h0
    dsimp only at h0 ⊢
    split at h0
    · unfold afterLast at h0
      split at h0
      · next he => exact max?_eq_none_iff.1 he
      · omega
    · rw [h h0] at hi
      cases hi
  · exact h

theorem Known.remove {st : State} (h : st.maxSolved ≠ 0) (i : Int) : (removeSolved i st).maxSolved ≠ 0 := by
  rwa [(removeSolved_fields i st).2.2.2.2.2.2]

theorem Known.check {st : State} (h : st.maxSolved ≠ 0) (i : Nat) : Known (checkSolved i st) := by
  unfold checkSolved
  dsimp only
  split
  · exact Known.add (fun h0 => absurd h0 (Known.remove h _)) _
  · exact fun h0 => absurd h0 (Known.remove h _)

/-- What is kept by the loop. -/
structure Solving (st : State) : Prop where
  right : Right st
  known : Known st
  perm : st.stack.Perm st.final
  short : st.final.length ≤ 17
  needed : ∀ v ∈ st.stack, 0 ≤ st.copies v

theorem set_perm {s : List Var} {a b : Var} {k : Nat} (hk : 0 < k) (h0 : s[0]? = some a) (hb : s[k]? = some b) : ((s.set 0 b).set k a).Perm s := by
  cases s with
  | nil => cases h0
  | cons c s =>
    obtain ⟨k, rfl⟩ : ∃ k', k = k' + 1 := ⟨k - 1, by omega⟩
    simp only [getElem?_cons_zero, Option.some.injEq] at h0
    subst h0
    simp only [getElem?_cons_succ] at hb
    simp only [set_cons_zero, set_cons_succ]
    obtain ⟨hlt, rfl⟩ := List.getElem?_eq_some_iff.1 hb
    have e1 : s.set k c = s.take k ++ c :: s.drop (k + 1) := set_eq_take_append_cons_drop.trans (by rw [if_pos hlt])
    have e2 : s = s.take k ++ s[k] :: s.drop (k + 1) := by rw [getElem_cons_drop, take_append_drop]
    rw [e1]
    conv_rhs => rw [e2]
    exact ((perm_middle.cons _).trans (Perm.swap _ _ _)).trans (perm_middle.symm.cons _)

/-- An exchange with a misplaced position. -/
theorem swap_solving {st : State} (h : Solving st) {k : Nat} {a b : Var} (hk : 0 < k) (h0 : st.stack[0]? = some a) (hb : st.stack[k]? = some b)
    (hm : Misplaced st.stack st.final k) : ∃ st', call st (.swap k) = some (st', ["SWAP" ++ toString k]) ∧ Solving st' ∧ st'.stack = (st.stack.set 0 b).set k a ∧ st'.final = st.final := by
  have hc : call st (.swap k) = some (checkSolved k (checkSolved 0 { st with stack := (st.stack.set 0 b).set k a }), ["SWAP" ++ toString k]) := by
    simp only [call, h0, hb, if_pos hk]
  refine ⟨_, hc, ?_, ?_, ?_⟩
  · obtain ⟨hr, -⟩ := right_call h.right hc
    have hlen : st.stack.length = st.final.length := h.perm.length_eq
    have hkl : k < st.stack.length := (List.getElem?_eq_some_iff.1 hb).1
    have hp := set_perm hk h0 hb
    refine ⟨hr, ?_, ?_, ?_, ?_⟩
    · apply Known.check
      -- position `k` is still in the record
      have hmem : k ∈ (checkSolved 0 { st with stack := (st.stack.set 0 b).set k a }).notSolved := by
        rw [mem_checkSolved (by simp; omega)]
        have hne : ¬ ((k : Int) = posInFinal (0 : Nat) ((st.stack.set 0 b).set k a) st.final) := by
          unfold posInFinal
          simp only [length_set]
          omega
        dsimp only
        rw [if_neg hne]
        exact (h.right.solved k).2 hm
      have hmax : st.maxSolved ≠ 0 := by
        intro e
        have := h.known e
        have hk' := (h.right.solved k).2 hm
        rw [this] at hk'
        cases hk'
      have hkn : Known (checkSolved 0 { st with stack := (st.stack.set 0 b).set k a }) := Known.check (by exact hmax) 0
      intro e
      rw [hkn e] at hmem
      cases hmem
    · rw [(checkSolved_fields _ _).1, (checkSolved_fields _ _).1, (checkSolved_fields _ _).2.1, (checkSolved_fields _ _).2.1]
      exact hp.trans h.perm
    · rw [(checkSolved_fields _ _).2.1, (checkSolved_fields _ _).2.1]
      exact h.short
    · rw [(checkSolved_fields _ _).1, (checkSolved_fields _ _).1, (checkSolved_fields _ _).2.2.1, (checkSolved_fields _ _).2.2.1]
      exact fun v hv => h.needed v (hp.mem_iff.1 hv)
  · rw [(checkSolved_fields _ _).1, (checkSolved_fields _ _).1]
  · rw [(checkSolved_fields _ _).2.1, (checkSolved_fields _ _).2.1]

/-- How many positions below the top are misplaced. -/
def below (s f : List Var) : Nat := ((range f.length).filter fun j => decide (0 < j) && decide (s[j]? ≠ f[j]?)).length

/-- What becomes smaller. -/
def work (st : State) : Nat := 2 * below st.stack st.final + match st.stack with
  | [] => 0
  | top :: _ => if (available top st).isSome then 0 else 1

theorem below_le (s f : List Var) : below s f ≤ f.length - 1 := by
  unfold below
  cases hf : f.length with
  | zero => simp
  | succ n =>
    rw [range_succ_eq_map, filter_cons]
    simp only [Nat.lt_irrefl, decide_false, Bool.false_and, Bool.false_eq_true, if_false]
    exact (length_filter_le _ _).trans (by simp)

theorem below_same {s s' f : List Var} (h : ∀ j, 0 < j → j < f.length → (s'[j]? ≠ f[j]? ↔ s[j]? ≠ f[j]?)) : below s' f = below s f := by
  unfold below
  congr 1
  refine filter_congr fun j hj => ?_
  by_cases h0 : 0 < j
  · simp only [h0, decide_true, Bool.true_and, decide_eq_decide]
    exact h j h0 (by simpa using hj)
  · simp [h0]

theorem below_less {s s' f : List Var} {k : Nat} (hk : 0 < k) (hkf : k < f.length) (h1 : s[k]? ≠ f[k]?) (h2 : s'[k]? = f[k]?)
    (h : ∀ j, 0 < j → j ≠ k → s'[j]? = s[j]?) : below s' f < below s f := by
  unfold below
  have e : ((range f.length).filter fun j => decide (0 < j) && decide (s'[j]? ≠ f[j]?)) =
      (((range f.length).filter fun j => decide (0 < j) && decide (s[j]? ≠ f[j]?)).filter fun j => decide (j ≠ k)) := by
    rw [filter_filter]
    refine filter_congr fun j _ => ?_
    by_cases hj : j = k
    · subst hj; simp [h2]
    · by_cases h0 : 0 < j
      · simp [h0, hj, h j h0 hj]
      · simp [h0]
  rw [e]
  refine length_filter_lt_length_iff_exists.2 ⟨k, ?_, by simp⟩
  rw [mem_filter]
  exact ⟨by simpa using hkf, by simp only [hk, decide_true, Bool.true_and, decide_eq_true_eq]; exact h1⟩

theorem step_solving {st : State} (h : Solving st) (hne : st.stack ≠ st.final) : ∃ st' k, permStep st = some (st', ["SWAP" ++ toString k]) ∧ call st (.swap k) = some (st', ["SWAP" ++ toString k]) ∧ 1 ≤ k ∧ k ≤ 16 ∧ Solving st' ∧
    st'.final = st.final ∧ work st' < work st := by
  have hlen : st.stack.length = st.final.length := h.perm.length_eq
  cases hs : st.stack with
  | nil =>
    exfalso
    apply hne
    have := h.perm
    rw [hs] at this ⊢
    exact (nil_perm.1 this).symm
  | cons top rest =>
    have h0 : st.stack[0]? = some top := by rw [hs]; rfl
    have hnn : ¬ st.copies top < 0 := by
      have := h.needed top (by rw [hs]; exact mem_cons_self)
      omega
    -- what an exchange does with the positions
    have hset : ∀ (k : Nat) (b : Var), 0 < k → k < st.stack.length → ((st.stack.set 0 b).set k top)[k]? = some top ∧ ((st.stack.set 0 b).set k top)[0]? = some b ∧
        ∀ j, 0 < j → j ≠ k → ((st.stack.set 0 b).set k top)[j]? = st.stack[j]? := by
      intro k b hk hkl
      refine ⟨by rw [getElem?_set_self (by simpa using hkl)], by rw [getElem?_set_ne (by omega), getElem?_set_self (by omega)], fun j hj hjk => ?_⟩
      rw [getElem?_set_ne (by omega), getElem?_set_ne (by omega)]
    have hwork : work st = 2 * below st.stack st.final + if (available top st).isSome then 0 else 1 := by
      unfold work
      rw [hs]
    unfold permStep
    rw [hs]
    dsimp only
    rw [if_neg hnn]
    cases ha : available top st with
    | some k =>
      obtain ⟨a1, a2⟩ := available_some hlen ha
      have hk : 0 < k := by
        rcases Nat.eq_zero_or_pos k with e | e
        · subst e; exact absurd h0 a2
        · exact e
      have hkf : k < st.final.length := (List.getElem?_eq_some_iff.1 a1).1
      have hb : st.stack[k]? = some st.stack[k] := getElem?_eq_getElem (by omega)
      have hmis : st.stack[k]? ≠ st.final[k]? := by rw [a1]; exact a2
      obtain ⟨st', c1, c2, c3, c4⟩ := swap_solving h hk h0 hb ((misplaced_same hlen).2 ⟨hkf, hmis⟩)
      obtain ⟨s1, s2, s3⟩ := hset k st.stack[k] hk (by omega)
      have hshort := h.short
      refine ⟨st', k, c1, c1, hk, by omega, c2, c4, ?_⟩
      have hlt : below st'.stack st'.final < below st.stack st.final := by
        rw [c3, c4]
        exact below_less hk hkf hmis (by rw [s1, a1]) s3
      have hle : work st' ≤ 2 * below st'.stack st'.final + 1 := by
        unfold work
        split
        · omega
        · split <;> omega
      rw [hwork]
      omega
    | none =>
      have hall := available_none hlen h.short ha
      have htop : st.final[0]? = some top := places h.perm hall h0
      -- the recorded position
      have hex : ∃ j, Misplaced st.stack st.final j := by
        by_contra hno
        apply hne
        refine ext_getElem? fun j => ?_
        by_cases hj : j < st.final.length
        · by_contra hd
          exact hno ⟨j, (misplaced_same hlen).2 ⟨hj, hd⟩⟩
        · rw [getElem?_eq_none (by omega), getElem?_eq_none (by omega)]
      obtain ⟨j0, hj0⟩ := hex
      have hmax : st.maxSolved ≠ 0 := by
        intro e
        have hk' := (h.right.solved j0).2 hj0
        rw [h.known e] at hk'
        cases hk'
      obtain ⟨m, hm⟩ : ∃ m, st.maxSolved = m + 1 := ⟨st.maxSolved - 1, by omega⟩
      have hmis := (h.right.solved m).1 (h.right.max m hm)
      obtain ⟨hmf, hmd⟩ := (misplaced_same hlen).1 hmis
      have hm0 : 0 < m := by
        rcases Nat.eq_zero_or_pos m with e | e
        · subst e; rw [h0, htop] at hmd; exact absurd rfl hmd
        · exact e
      have hb : st.stack[m]? = some st.stack[m] := getElem?_eq_getElem (by omega)
      obtain ⟨st', c1, c2, c3, c4⟩ := swap_solving h hm0 h0 hb hmis
      obtain ⟨s1, s2, s3⟩ := hset m st.stack[m] hm0 (by omega)
      have hpos : posInStack ((st.maxSolved : Int) - 1) st.stack st.final = m := by unfold posInStack; omega
      have hw : st.final[m]? = some st.final[m] := getElem?_eq_getElem hmf
      have hmem : st.final[m] ∈ st.stack := h.perm.mem_iff.2 (getElem_mem hmf)
      have hshort := h.short
      have hstep : (if posInStack ((st.maxSolved : Int) - 1) (top :: rest) st.final ≤ 16 then
          match (if st.maxSolved = 0 then st.final.getLast? else st.final[st.maxSolved - 1]?) with
          | none => none
          | some w => if w ∉ top :: rest then call st (.get w false) else
            if 0 < posInStack ((st.maxSolved : Int) - 1) (top :: rest) st.final then call st (.swap (posInStack ((st.maxSolved : Int) - 1) (top :: rest) st.final).toNat) else none
          else none) = some (st', ["SWAP" ++ toString m]) := by
        rw [← hs, hpos, if_pos (by omega), if_neg hmax]
        have e : st.maxSolved - 1 = m := by omega
        rw [e, hw]
        dsimp only
        rw [if_neg (by simpa using hmem), if_pos (by omega), Int.toNat_natCast]
        exact c1
      refine ⟨st', m, hstep, c1, hm0, by omega, c2, c4, ?_⟩
      -- the element is misplaced as before
      have hft : st.final[m]? ≠ some top := fun e => hmd (by rw [hall m e, e])
      have hsame : below st'.stack st'.final = below st.stack st.final := by
        rw [c3, c4]
        refine below_same fun j hj _ => ?_
        by_cases hjm : j = m
        · subst hjm
          rw [s1]
          exact ⟨fun _ => hmd, fun _ e => hft e.symm⟩
        · rw [s3 j hj hjm]
      -- the new top has a place
      have hav : (available st.stack[m] st').isSome := by
        cases hn : available st.stack[m] st' with
        | some => rfl
        | none =>
          exfalso
          have hall' := available_none c2.perm.length_eq c2.short hn
          have h0' : st'.stack[0]? = some st.stack[m] := by rw [c3]; exact s2
          have := places c2.perm hall' h0'
          rw [c4, htop] at this
          simp only [Option.some.injEq] at this
          have hx : st.stack[m]? = some top := by rw [hb, this]
          exact hft (places h.perm hall hx)
      have hwork' : work st' = 2 * below st'.stack st'.final := by
        unfold work
        cases hs' : st'.stack with
        | nil => simp
        | cons t r =>
          have : t = st.stack[m] := by
            have h0' : st'.stack[0]? = some st.stack[m] := by rw [c3]; exact s2
            rw [hs'] at h0'
            simpa using h0'
          subst this
          simp [hav]
      rw [hwork, hwork', hsame, ha]
      simp

theorem loop_solving : ∀ (f : Nat) (st : State), Solving st → work st < f → ∃ (st' : State) (ks : List Nat), permLoop f st = .done st' (ks.map fun k => "SWAP" ++ toString k) ∧
    play st (ks.map .swap) = some (st', ks.map fun k => "SWAP" ++ toString k) ∧ st'.stack = st.final ∧ ks.length ≤ work st ∧ ∀ k ∈ ks, 1 ≤ k ∧ k ≤ 16 := by
  intro f
  induction f with
  | zero => intro st _ h; omega
  | succ f ih =>
    intro st h hw
    unfold permLoop
    by_cases he : st.stack = st.final
    · rw [if_pos he]
      exact ⟨st, [], rfl, rfl, he, by simp, by simp⟩
    · rw [if_neg he]
      obtain ⟨st1, k, h1, h2, h3, h4, h5, h6, h7⟩ := step_solving h he
      obtain ⟨st', ks, g1, g2, g3, g4, g5⟩ := ih st1 h5 (by omega)
      refine ⟨st', k :: ks, ?_, ?_, by rw [g3, h6], by simp only [length_cons]; omega, ?_⟩
      · rw [h1]
        dsimp only
        rw [g1]
        rfl
      · simp only [map_cons, play, h2, Option.bind_some, g2, Option.map_some]
        rfl
      · intro x hx
        rcases mem_cons.1 hx with rfl | hx
        · exact ⟨h3, h4⟩
        · exact g5 x hx

theorem solving_init {stack final : List Var} {copies : Var → Int} (hp : stack.Perm final) (h17 : final.length ≤ 17) (hc : ∀ v ∈ stack, 0 ≤ copies v) :
    Solving (init stack final copies) := by
  refine ⟨right_init stack final copies, ?_, hp, h17, hc⟩
  intro h
  have h' : afterLast (unsolved stack final) = 0 := h
  change unsolved stack final = []
  unfold afterLast at h'
  split at h'
  · next he => exact max?_eq_none_iff.1 he
  · omega

theorem work_le (st : State) : work st ≤ 2 * (st.final.length - 1) + 1 := by
  have := below_le st.stack st.final
  unfold work
  split
  · omega
  · split <;> omega

theorem retrieved_swaps (ks : List Nat) : instrs (ks.map .swap) = [] ∧ retrieved (ks.map .swap) = [] := by
  induction ks with
  | nil => exact ⟨rfl, rfl⟩
  | cons k ks ih => exact ⟨by simpa [instrs] using ih.1, by simpa [retrieved] using ih.2⟩

/-! ### C103 -/

/-- **C103.** If the loop returns, then the stack is the final one. -/
theorem permutation_right : ∀ {f : Nat} {st st' : State} {ids : List String}, permLoop f st = .done st' ids → st'.stack = st'.final
  | 0, _, _, _, h => by cases h
  | f + 1, st, st', ids, h => by
    unfold permLoop at h
    split at h
    · next he =>
      simp only [Outcome.done.injEq] at h
      obtain ⟨rfl, -⟩ := h
      exact he
    · split at h
      · cases h
      · next st1 ids1 _ =>
        cases hp : permLoop f st1 with
        | running => rw [hp] at h; cases h
        | raised => rw [hp] at h; cases h
        | done st2 ids2 =>
          rw [hp] at h
          simp only [Outcome.after, Outcome.done.injEq] at h
          obtain ⟨rfl, -⟩ := h
          exact permutation_right hp

/-- **C103.** A permutation of at most 17 elements is put in order: the loop ends, raises no exception, and emits only exchanges within reach, less than twice as many as
there are elements; and the validator that executes them arrives at the final stack. -/
theorem permutation_solved {stack final : List Var} {copies : Var → Int} (hp : stack.Perm final) (h17 : final.length ≤ 17) (hc : ∀ v ∈ stack, 0 ≤ copies v) (hne : final ≠ []) :
    ∃ (st : State) (ks : List Nat), permLoop (2 * final.length) (init stack final copies) = .done st (ks.map fun k => "SWAP" ++ toString k) ∧ st.stack = final ∧
      ks.length < 2 * final.length ∧ (∀ k ∈ ks, 1 ≤ k ∧ k ≤ 16) ∧
      ((∀ v ∈ stack, Plain v) → execIds [] (ks.map fun k => "SWAP" ++ toString k) stack = some final) := by
  have hw : work (init stack final copies) ≤ 2 * (final.length - 1) + 1 := work_le (init stack final copies)
  have hl : 0 < final.length := length_pos_iff.2 hne
  obtain ⟨st, ks, g1, g2, g3, g4, g5⟩ := loop_solving (2 * final.length) _ (solving_init hp h17 hc) (by omega)
  have g3' : st.stack = final := g3
  refine ⟨st, ks, g1, g3', by omega, g5, fun hs => ?_⟩
  rw [← g3']
  exact schedule_executes_partial ⟨by simp, by simp, by simp, by simp, by simp⟩ g2 (by simp [retrieved_swaps]) (by simp [retrieved_swaps]) hs

/-- **C103.** The same from any state that a sequence of steps reaches, if its record of the deepest misplaced position is not empty while something is misplaced. -/
theorem permutation_solved_later_partial {stack final : List Var} {copies : Var → Int} {cs : List Call} {st : State} {ids : List String}
    (h : play (init stack final copies) cs = some (st, ids)) (hk : st.maxSolved = 0 → ∀ j, ¬ Misplaced st.stack st.final j)
    (hp : st.stack.Perm st.final) (h17 : st.final.length ≤ 17) (hc : ∀ v ∈ st.stack, 0 ≤ st.copies v) :
    ∃ (st' : State) (ks : List Nat), permLoop (2 * st.final.length + 2) st = .done st' (ks.map fun k => "SWAP" ++ toString k) ∧ st'.stack = st.final ∧ ∀ k ∈ ks, 1 ≤ k ∧ k ≤ 16 := by
  have hr := (right_play cs (right_init stack final copies) h).1
  have hs : Solving st := ⟨hr, fun e => eq_nil_iff_forall_not_mem.2 fun j hj => hk e j ((hr.solved j).1 hj), hp, h17, hc⟩
  have hw := work_le st
  obtain ⟨st', ks, g1, -, g3, -, g5⟩ := loop_solving (2 * st.final.length + 2) st hs (by omega)
  exact ⟨st', ks, g1, g3, g5⟩

/-! ### Examples -/

/-- A cycle, and elements that occur twice. -/
theorem permutation_example : (permLoop 12 (init ["a", "c", "b", "a", "d", "b"] ["b", "a", "a", "d", "b", "c"] fun _ => 0)).shown =
    some (["b", "a", "a", "d", "b", "c"], ["SWAP2", "SWAP4", "SWAP3", "SWAP1", "SWAP5"]) := by decide +kernel

/-- The hypotheses of `permutation_solved`. -/
example : ["a", "c", "b", "a", "d", "b"].Perm ["b", "a", "a", "d", "b", "c"] ∧ ["b", "a", "a", "d", "b", "c"].length ≤ 17 := by decide +kernel

/-- The hypotheses of `permutation_solved_later_partial`: a copy and an exchange. -/
example : ∃ st ids, play (init ["a", "b"] ["b", "a", "a"] fun v => if v = "a" then 1 else 0) [.dup 1, .swap 1] = some (st, ids) ∧ st.maxSolved ≠ 0 ∧
    st.stack.Perm st.final ∧ st.stack ≠ st.final := ⟨_, _, rfl, by decide +kernel, by decide +kernel, by decide +kernel⟩

/-- **C103, refuted.** After three exchanges of a stack that is in order, the record of the deepest misplaced position is empty although two elements are misplaced, and
the loop raises an exception. -/
theorem permutation_raises : ∃ st ids, play (init ["a", "b", "c"] ["a", "b", "c"] fun _ => 0) [.swap 1, .swap 2, .swap 1] = some (st, ids) ∧
    st.stack = ["a", "c", "b"] ∧ permLoop 8 st = .raised := by
  refine ⟨_, _, rfl, by decide +kernel, rfl⟩

end Grey.Greedy.Alternative
