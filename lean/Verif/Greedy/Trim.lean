/-
C104: the last phase of the alternative scheduler (`solve_permutation`) on a stack with more elements than the final one.
-/
import Verif.Greedy.Permutation
namespace Grey.Greedy.Alternative
open List SymExec

/-! ### Proofs -/

theorem misplaced_drop {s f : List Var} (hl : f.length ≤ s.length) {j : Nat} : Misplaced s f j ↔ j < f.length ∧ s[s.length - f.length + j]? ≠ f[j]? := by
  unfold Misplaced
  refine and_congr_right fun hj => ?_
  rw [getElem?_reverse (by omega)]
  have : s.length - 1 - (f.length - 1 - j) = s.length - f.length + j := by omega
  rw [this]

theorem available_some_drop {v : Var} {st : State} {k : Nat} (hl : st.final.length ≤ st.stack.length) (h : available v st = some k) :
    ∃ p, k = st.stack.length - st.final.length + p ∧ st.final[p]? = some v ∧ st.stack[k]? ≠ some v := by
  unfold available at h
  rw [Option.map_eq_some_iff] at h
  obtain ⟨z, hz, rfl⟩ := h
  have h1 := find?_some hz
  have h2 := (takeWhile_sublist _).subset (mem_of_find?_eq_some hz)
  rw [mem_map] at h2
  obtain ⟨p, hp, rfl⟩ := h2
  simp only [Bool.and_eq_true, decide_eq_true_eq] at h1
  refine ⟨p, by unfold posInStack; omega, ?_, h1.2⟩
  simpa [positions] using (mem_filter.1 (mem_reverse.1 hp)).2

theorem available_none_drop {v : Var} {st : State} (hl : st.final.length ≤ st.stack.length) (h17 : st.stack.length ≤ 17) (h : available v st = none) :
    ∀ p : Nat, st.final[p]? = some v → st.stack[st.stack.length - st.final.length + p]? = some v := by
  intro p hp
  unfold available at h
  rw [Option.map_eq_none_iff, find?_eq_none] at h
  have hpl : p < st.final.length := (List.getElem?_eq_some_iff.1 hp).1
  have hpos : ∀ q : Nat, posInStack q st.stack st.final = (st.stack.length - st.final.length + q : Nat) := fun q => by unfold posInStack; omega
  have htw : (((positions v st.final).reverse.map fun p => posInStack (p : Nat) st.stack st.final).takeWhile fun k : Int => decide (0 ≤ k)) =
      (positions v st.final).reverse.map fun p => posInStack (p : Nat) st.stack st.final := by
    refine takeWhile_all ?_
    intro z hz
    obtain ⟨q, -, rfl⟩ := mem_map.1 hz
    rw [hpos]
    exact decide_eq_true (by omega)
  rw [htw] at h
  have := h (posInStack p st.stack st.final) (mem_map.2 ⟨p, mem_reverse.2 (mem_filter.2 ⟨by simpa using hpl, by simpa using hp⟩), rfl⟩)
  rw [hpos] at this
  simp only [Int.toNat_natCast, Bool.and_eq_true, decide_eq_true_eq, not_and, not_not] at this
  exact this (by omega)

/-- What is kept by the loop. -/
structure Trimming (st : State) : Prop where
  right : Right st
  known : Known st
  short : st.stack.length ≤ 17
  copies : ∀ v, st.copies v = (st.final.count v : Int) - st.stack.count v
  more : ∀ v, st.final.count v ≤ st.stack.count v

theorem perm_append_diff {s f : List Var} (h : ∀ v, f.count v ≤ s.count v) : s.Perm (f ++ s.diff f) := by
  rw [perm_iff_count]
  intro v
  rw [count_append, count_diff]
  have := h v
  omega

theorem more_length {s f : List Var} (h : ∀ v, f.count v ≤ s.count v) : f.length ≤ s.length := by
  have := (perm_append_diff h).length_eq
  rw [length_append] at this
  omega

theorem more_perm {s f : List Var} (h : ∀ v, f.count v ≤ s.count v) (hl : s.length = f.length) : s.Perm f := by
  have hp := perm_append_diff h
  have := hp.length_eq
  rw [length_append] at this
  have hn : s.diff f = [] := length_eq_zero_iff.1 (by omega)
  rwa [hn, append_nil] at hp

/-- An exchange with a misplaced position. -/
theorem swap_known {st : State} (hr : Right st) (hk : Known st) {k p : Nat} {a b : Var} (hk0 : 0 < k) (hpk : (p : Int) = posInFinal k st.stack st.final)
    (h0 : st.stack[0]? = some a) (hb : st.stack[k]? = some b) (hm : Misplaced st.stack st.final p) :
    ∃ st', call st (.swap k) = some (st', ["SWAP" ++ toString k]) ∧ Right st' ∧ Known st' ∧ st'.stack = (st.stack.set 0 b).set k a ∧ st'.final = st.final ∧
      st'.copies = st.copies := by
  have hc : call st (.swap k) = some (checkSolved k (checkSolved 0 { st with stack := (st.stack.set 0 b).set k a }), ["SWAP" ++ toString k]) := by
    simp only [call, h0, hb, if_pos hk0]
  have hkl : k < st.stack.length := (List.getElem?_eq_some_iff.1 hb).1
  refine ⟨_, hc, (right_call hr hc).1, ?_, ?_, ?_, ?_⟩
  · apply Known.check
    have hmem : p ∈ (checkSolved 0 { st with stack := (st.stack.set 0 b).set k a }).notSolved := by
      rw [mem_checkSolved (by simp; omega)]
      have hne : ¬ ((p : Int) = posInFinal (0 : Nat) ((st.stack.set 0 b).set k a) st.final) := by
        unfold posInFinal at hpk ⊢
        simp only [length_set]
        omega
      dsimp only
      rw [if_neg hne]
      exact (hr.solved p).2 hm
    have hmax : st.maxSolved ≠ 0 := by
      intro e
      have hk' := (hr.solved p).2 hm
      rw [hk e] at hk'
      cases hk'
    have hkn : Known (checkSolved 0 { st with stack := (st.stack.set 0 b).set k a }) := Known.check (by exact hmax) 0
    intro e
    rw [hkn e] at hmem
    cases hmem
  · rw [(checkSolved_fields _ _).1, (checkSolved_fields _ _).1]
  · rw [(checkSolved_fields _ _).2.1, (checkSolved_fields _ _).2.1]
  · rw [(checkSolved_fields _ _).2.2.1, (checkSolved_fields _ _).2.2.1]

/-- How many positions of the final stack are misplaced. -/
def off (s f : List Var) : Nat := ((range f.length).filter fun j => decide (s[s.length - f.length + j]? ≠ f[j]?)).length

theorem off_le (s f : List Var) : off s f ≤ f.length := (length_filter_le _ _).trans (by simp)

theorem off_less {s s' f : List Var} {p : Nat} (hl : s'.length = s.length) (hp : p < f.length) (h1 : s[s.length - f.length + p]? ≠ f[p]?)
    (h2 : s'[s.length - f.length + p]? = f[p]?)
    (h : ∀ j < f.length, j ≠ p → s'[s.length - f.length + j]? = s[s.length - f.length + j]?) : off s' f < off s f := by
  unfold off
  rw [hl]
  have e : ((range f.length).filter fun j => decide (s'[s.length - f.length + j]? ≠ f[j]?)) =
      (((range f.length).filter fun j => decide (s[s.length - f.length + j]? ≠ f[j]?)).filter fun j => decide (j ≠ p)) := by
    rw [filter_filter]
    refine filter_congr fun j hj => ?_
    by_cases hjp : j = p
    · subst hjp; simp [h2]
    · rw [h j (by simpa using hj) hjp]
      simp [hjp]
  rw [e]
  refine length_filter_lt_length_iff_exists.2 ⟨p, ?_, by simp⟩
  rw [mem_filter]
  exact ⟨by simpa using hp, by simpa only [decide_eq_true_eq] using h1⟩

theorem permLoop_step {f : Nat} {st st1 st' : State} {ids1 ids : List String} (hne : st.stack ≠ st.final) (h1 : permStep st = some (st1, ids1))
    (h : permLoop f st1 = .done st' ids) : permLoop (f + 1) st = .done st' (ids1 ++ ids) := by
  rw [permLoop, if_neg hne, h1]
  dsimp only
  rw [h]
  rfl

/-- One iteration while there are too many elements: an exchange or a removal. -/
theorem step_trimming {st : State} (h : Trimming st) (hgt : st.final.length < st.stack.length) :
    ∃ st' c ids, permStep st = some (st', ids) ∧ call st c = some (st', ids) ∧ (c = .pop ∨ ∃ k, c = .swap k ∧ 1 ≤ k ∧ k ≤ 16) ∧ ids.length = 1 ∧ Trimming st' ∧
      st'.final = st.final ∧ st'.stack.length - st'.final.length + off st'.stack st'.final < st.stack.length - st.final.length + off st.stack st.final := by
  cases hs : st.stack with
  | nil => rw [hs] at hgt; simp at hgt
  | cons top rest =>
    have h0 : st.stack[0]? = some top := by rw [hs]; rfl
    unfold permStep
    rw [hs]
    dsimp only
    by_cases hc : st.copies top < 0
    · rw [if_pos hc]
      have hcall : call st .pop = some (oldTop top { st with stack := rest, copies := bump st.copies top 1 }, ["POP"]) := by
        simp only [call, hs]
      obtain ⟨hr, -⟩ := right_call h.right hcall
      obtain ⟨o1, o2, o3, -⟩ := oldTop_fields top { st with stack := rest, copies := bump st.copies top 1 }
      have hlt : st.final.length < rest.length + 1 := by rw [hs] at hgt; simpa using hgt
      refine ⟨_, .pop, _, hcall, hcall, .inl rfl, rfl, ⟨hr, ?_, ?_, ?_, ?_⟩, o2, ?_⟩
      · have hneg : ¬ (0 ≤ posInFinal (-1) rest st.final) := by unfold posInFinal; omega
        have hk := h.known
        unfold Known oldTop removeSolved
        dsimp only
        rw [if_neg hneg]
        exact hk
      · rw [o1]
        have := h.short
        rw [hs] at this
        simp at this ⊢
        omega
      · intro v
        rw [o1, o2, o3]
        have := h.copies v
        rw [hs, count_cons] at this
        simp only [bump]
        by_cases e : v = top
        · subst e
          simp at this ⊢
          omega
        · have e' : ¬ (top == v) = true := by simpa using fun x => e x.symm
          rw [if_neg e'] at this
          simp only [e, if_false]
          omega
      · intro v
        rw [o1, o2]
        have h1 := h.more v
        have h2 := h.copies v
        rw [hs, count_cons] at h1 h2
        by_cases e : v = top
        · subst e
          simp at h2 ⊢
          omega
        · have e' : ¬ (top == v) = true := by simpa using fun x => e x.symm
          rw [if_neg e'] at h1
          simpa using h1
      · rw [o1, o2]
        have : off rest st.final = off (top :: rest) st.final := by
          unfold off
          congr 1
          refine filter_congr fun j _ => ?_
          have : (top :: rest).length - st.final.length + j = (rest.length - st.final.length + j) + 1 := by simp only [length_cons]; omega
          rw [this, getElem?_cons_succ]
        dsimp only
        rw [this]
        simp only [length_cons]
        omega
    · rw [if_neg hc]
      have hle : st.final.length ≤ st.stack.length := by omega
      cases ha : available top st with
      | none =>
        exfalso
        have hall := available_none_drop hle h.short ha
        have hcp := (count_places top (st.stack.drop (st.stack.length - st.final.length)) st.final (by rw [length_drop]; omega)
          fun p hp => by rw [getElem?_drop]; exact hall p hp).1
        have hd : st.stack.drop (st.stack.length - st.final.length) = rest.drop (st.stack.length - st.final.length - 1) := by
          obtain ⟨d, hd⟩ : ∃ d, st.stack.length - st.final.length = d + 1 := ⟨st.stack.length - st.final.length - 1, by omega⟩
          rw [hd, hs]
          simp
        rw [hd] at hcp
        have hsub := (drop_sublist (st.stack.length - st.final.length - 1) rest).count_le top
        have h2 := h.copies top
        rw [hs, count_cons_self] at h2
        omega
      | some k =>
        obtain ⟨p, hk, a1, a2⟩ := available_some_drop hle ha
        have hpf : p < st.final.length := (List.getElem?_eq_some_iff.1 a1).1
        have hkl : k < st.stack.length := by omega
        have hb : st.stack[k]? = some st.stack[k] := getElem?_eq_getElem hkl
        have hk0 : 0 < k := by omega
        have hmis : st.stack[st.stack.length - st.final.length + p]? ≠ st.final[p]? := by rw [a1, ← hk]; exact a2
        obtain ⟨st', c1, c2, c3, c4, c5, c6⟩ := swap_known h.right h.known hk0 (p := p) (by unfold posInFinal; omega) h0 hb ((misplaced_drop hle).2 ⟨hpf, hmis⟩)
        have hperm := set_perm hk0 h0 hb
        have hlen : st'.stack.length = st.stack.length := by rw [c4]; simp
        have hshort := h.short
        refine ⟨st', .swap k, _, c1, c1, .inr ⟨k, rfl, hk0, by omega⟩, rfl, ⟨c2, c3, by omega, ?_, ?_⟩, c5, ?_⟩
        · intro v
          rw [c5, c6, c4, hperm.count_eq]
          exact h.copies v
        · intro v
          rw [c5, c4, hperm.count_eq]
          exact h.more v
        · have : off st'.stack st.final < off st.stack st.final := by
            refine off_less hlen hpf hmis ?_ fun j hj hjp => ?_
            · rw [← hk, c4, getElem?_set_self (by simpa using hkl), a1]
            · rw [c4, getElem?_set_ne (by omega), getElem?_set_ne (by omega)]
          rw [← hs, c5, hlen]
          omega

/-- Exchanges within reach and removals. -/
def Simple (c : Call) : Prop := c = .pop ∨ ∃ k, c = .swap k ∧ 1 ≤ k ∧ k ≤ 16

theorem simple_calls {cs : List Call} (h : ∀ c ∈ cs, Simple c) : instrs cs = [] ∧ retrieved cs = [] := by
  induction cs with
  | nil => exact ⟨rfl, rfl⟩
  | cons c cs ih =>
    obtain ⟨i1, i2⟩ := ih fun c hc => h c (mem_cons_of_mem _ hc)
    rcases h c mem_cons_self with rfl | ⟨k, rfl, -, -⟩
    · exact ⟨by simpa [instrs] using i1, by simpa [retrieved] using i2⟩
    · exact ⟨by simpa [instrs] using i1, by simpa [retrieved] using i2⟩

theorem loop_trimming : ∀ (w : Nat) (st : State), Trimming st → st.stack.length - st.final.length + off st.stack st.final ≤ w →
    ∃ st' cs ids, permLoop (w + 2 * st.final.length + 2) st = .done st' ids ∧ play st cs = some (st', ids) ∧ (∀ c ∈ cs, Simple c) ∧ st'.stack = st.final ∧
      ids.length ≤ w + 2 * st.final.length + 1 := by
  intro w
  induction w with
  | zero =>
    intro st h hw
    have hle := more_length h.more
    have hs : Solving st := ⟨h.right, h.known, more_perm h.more (by omega), by have := h.short; omega, fun v _ => by
      have := h.copies v
      rw [(more_perm h.more (by omega)).count_eq] at this
      omega⟩
    have hwl := work_le st
    obtain ⟨st', ks, g1, g2, g3, g4, g5⟩ := loop_solving (0 + 2 * st.final.length + 2) st hs (by omega)
    exact ⟨st', ks.map .swap, _, g1, g2, fun c hc => by obtain ⟨k, hk, rfl⟩ := mem_map.1 hc; exact .inr ⟨k, rfl, g5 k hk⟩, g3, by simp only [length_map]; omega⟩
  | succ w ih =>
    intro st h hw
    have hle := more_length h.more
    by_cases hl : st.stack.length = st.final.length
    · have hs : Solving st := ⟨h.right, h.known, more_perm h.more hl, by have := h.short; omega, fun v _ => by
        have := h.copies v
        rw [(more_perm h.more hl).count_eq] at this
        omega⟩
      have hwl := work_le st
      obtain ⟨st', ks, g1, g2, g3, g4, g5⟩ := loop_solving (w + 1 + 2 * st.final.length + 2) st hs (by omega)
      exact ⟨st', ks.map .swap, _, g1, g2, fun c hc => by obtain ⟨k, hk, rfl⟩ := mem_map.1 hc; exact .inr ⟨k, rfl, g5 k hk⟩, g3, by simp only [length_map]; omega⟩
    · obtain ⟨st1, c, ids1, p1, p2, p3, p4, p5, p6, p7⟩ := step_trimming h (by omega)
      obtain ⟨st', cs, ids, g1, g2, g3, g4, g5⟩ := ih st1 p5 (by omega)
      rw [p6] at g1 g4 g5
      refine ⟨st', c :: cs, ids1 ++ ids, ?_, ?_, ?_, g4, by rw [length_append]; omega⟩
      · have := permLoop_step (fun e => hl (by rw [e])) p1 g1
        rw [show w + 1 + 2 * st.final.length + 2 = w + 2 * st.final.length + 2 + 1 by omega]
        exact this
      · simp only [play, p2, Option.bind_some, g2, Option.map_some]
      · intro x hx
        rcases mem_cons.1 hx with rfl | hx
        · exact p3
        · exact g3 x hx

/-! ### C104 -/

/-- **C104.** If a stack of at most 17 elements has all elements of the final stack and others, in any order, then the phase ends, raises no exception, leaves the final
stack, and emits at most as many instructions as the stack has elements and twice those of the final one, one more; the validator that executes them arrives at the final
stack. -/
theorem surplus_solved {stack final extra : List Var} (hp : stack.Perm (final ++ extra)) (h17 : stack.length ≤ 17) :
    ∃ (st : State) (ids : List String), permLoop (stack.length + 2 * final.length + 2) (init stack final fun v => (final.count v : Int) - stack.count v) = .done st ids ∧
      st.stack = final ∧ ids.length ≤ stack.length + 2 * final.length + 1 ∧ ((∀ v ∈ stack, Plain v) → execIds [] ids stack = some final) := by
  have hmore : ∀ v, final.count v ≤ stack.count v := fun v => by rw [hp.count_eq, count_append]; omega
  have hk : Known (init stack final fun v => (final.count v : Int) - stack.count v) := by
    intro h
    have h' : afterLast (unsolved stack final) = 0 := h
    change unsolved stack final = []
    unfold afterLast at h'
    split at h'
    · next he => exact max?_eq_none_iff.1 he
    · omega
  have ht : Trimming (init stack final fun v => (final.count v : Int) - stack.count v) := ⟨right_init _ _ _, hk, h17, fun _ => rfl, hmore⟩
  have hoff : stack.length - final.length + off stack final ≤ stack.length := by
    have := off_le stack final
    have := more_length hmore
    omega
  obtain ⟨st, cs, ids, g1, g2, g3, g4, g5⟩ := loop_trimming stack.length _ ht hoff
  have g4' : st.stack = final := g4
  refine ⟨st, ids, g1, g4', g5, fun hs => ?_⟩
  rw [← g4']
  obtain ⟨s1, s2⟩ := simple_calls g3
  exact schedule_executes_partial ⟨by simp, by simp, by simp, by simp, by simp⟩ g2 (by simp [s1]) (by simp [s2]) hs

/-! ### Examples -/

/-- A stack of six elements, of which two are not needed. -/
theorem surplus_example : (permLoop 18 (init ["a", "x", "c", "b", "a", "a"] ["c", "a", "b", "a"] fun v => (["c", "a", "b", "a"].count v : Int) - ["a", "x", "c", "b", "a", "a"].count v)).shown =
    some (["c", "a", "b", "a"], ["POP", "POP", "SWAP2", "SWAP1", "SWAP2"]) := by decide +kernel

/-- The hypotheses of `surplus_solved`. -/
example : ["a", "x", "c", "b", "a", "a"].Perm (["c", "a", "b", "a"] ++ ["a", "x"]) := by decide +kernel

end Grey.Greedy.Alternative
