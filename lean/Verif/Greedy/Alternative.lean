/-
C101: the symbolic state of the alternative scheduler, src/greedy/greedy_new_version.py (`SymbolicState`).

The scheduler itself (`SMSgreedy`) changes the state only by the methods modelled here, so that every run of it is a sequence of calls of them. Which calls it
makes is left open: the theorems are about every sequence.
-/
import Verif.Greedy.Theorems
import Mathlib.Data.List.Nodup
namespace Grey.Greedy.Alternative
open List SymExec

/-! ### Model -/

/-- The fields of `SymbolicState` (src/greedy/greedy_new_version.py:69-131) that record stacks and counts. Dictionaries with a default are functions, the set
`not_solved` is a list. `saved`: the final stacks of `_recursive_information`. Simplification: without the graph of dependencies, the candidates, `reachable`,
`modifications` and the trace. -/
structure State where
  stack : List Var
  final : List Var
  notSolved : List Nat
  maxSolved : Nat
  copies : Var → Int
  toDup : List Var
  computed : Var → Int
  inMemory : List Var
  toFix : List Var
  gets : String → Nat
  saved : List (List Var)

/-- `idx_wrt_fstack` (src/greedy/greedy_new_version.py:35-39, 192-196). -/
def posInFinal (idx : Int) (stack final : List Var) : Int := idx - stack.length + final.length

/-- `0 if len(not_solved) == 0 else max(not_solved) + 1` (src/greedy/greedy_new_version.py:145, 166-169). -/
def afterLast (ns : List Nat) : Nat := match ns.max? with
  | none => 0
  | some m => m + 1

/-- The set `not_solved` of `_determine_solved` (src/greedy/greedy_new_version.py:133-141). -/
def unsolved (stack final : List Var) : List Nat :=
  let solved := ((stack.reverse.zip final.reverse).zipIdx.filter fun p => decide (p.1.1 = p.1.2)).map fun p => final.length - p.2 - 1
  (range final.length).filter fun j => decide (j ∉ solved)

/-- `_determine_solved` (src/greedy/greedy_new_version.py:133-145). -/
def determineSolved (st : State) : State :=
  let ns := unsolved st.stack st.final
  { st with notSolved := ns, maxSolved := afterLast ns }

/-- `SymbolicState.__init__` (src/greedy/greedy_new_version.py:69-131). -/
def init (stack final : List Var) (copies : Var → Int) : State :=
  determineSolved ⟨stack, final, [], 0, copies, stack.filter fun v => decide (copies v > 0), fun v => stack.count v, [], [], fun _ => 0, []⟩

/-- `_remove_solved` (src/greedy/greedy_new_version.py:147-155). -/
def removeSolved (idx : Int) (st : State) : State :=
  if 0 ≤ idx then { st with notSolved := if idx.toNat ∈ st.notSolved then st.notSolved else idx.toNat :: st.notSolved } else st

/-- `_add_solved` (src/greedy/greedy_new_version.py:157-172). -/
def addSolved (idx : Nat) (st : State) : State :=
  if idx ∈ st.notSolved then
    let ns := st.notSolved.filter fun j => decide (j ≠ idx)
    { st with notSolved := ns, maxSolved := if idx + 1 = st.maxSolved then afterLast ns else st.maxSolved }
  else st

/-- `_check_idx_solved_cstack` (src/greedy/greedy_new_version.py:174-182). -/
def checkSolved (idx : Nat) (st : State) : State :=
  let pos := posInFinal idx st.stack st.final
  let st' := removeSolved pos st
  if 0 ≤ pos ∧ pos < st.final.length ∧ st.final[pos.toNat]? = st.stack[idx]? then addSolved pos.toNat st' else st'

/-- The topmost element is new: the last steps of `dup`, `insert_element` and `from_memory` (src/greedy/greedy_new_version.py:246-252, 319-327, 383-392). -/
def newTop (v : Var) (st : State) : State :=
  let pos := posInFinal 0 st.stack st.final
  let st' := if 0 ≤ pos ∧ st.final[pos.toNat]? = some v then addSolved pos.toNat st else st
  { st' with computed := fun w => if w = v then st'.computed w + 1 else st'.computed w }

/-- The topmost element has been removed: the last steps of `pop`, `consume_element` and `store_in_memory`
(src/greedy/greedy_new_version.py:271-275, 295-299, 419-422), with `decrement_and_clean` (57-60). -/
def oldTop (v : Var) (st : State) : State :=
  let st' := removeSolved (posInFinal (-1) st.stack st.final) st
  { st' with computed := fun w => if w = v then st'.computed w - 1 else st'.computed w }

/-- `d[v] += n`. -/
def bump (f : Var → Int) (v : Var) (n : Int) : Var → Int := fun w => if w = v then f w + n else f w

/-- `cheap` (src/greedy/greedy_new_version.py:50-54); `size` is the size of the instruction. -/
def cheap (u : UInstr) (size : Nat) : Bool := decide (u.inpt.length = 0) && decide (size ≤ 2)

/-- `consume_element` (src/greedy/greedy_new_version.py:287-304), `n` times: the elements and the new state. `none`: `IndexError`. -/
def consumeN : Nat → State → Option (List Var × State)
  | 0, st => some ([], st)
  | n + 1, st =>
    match st.stack with
    | [] => none
    | v :: rest => (consumeN n (oldTop v { st with stack := rest })).map fun r => (v :: r.1, r.2)

/-- `insert_element` (src/greedy/greedy_new_version.py:306-327). -/
def insertElement (u : UInstr) (size : Nat) (st : State) (v : Var) : State :=
  let copies := bump st.copies v (-1)
  newTop v { st with
    stack := v :: st.stack
    copies := copies
    toDup := if !cheap u size ∧ copies v > 0 then st.toDup ++ [v] else st.toDup }

/-- The methods that change the state. `recursive`: `recursive_state` with the new final stack. -/
inductive Call where
  | swap (x : Nat)
  | dup (x : Nat)
  | pop
  | uf (u : UInstr) (size : Nat)
  | get (v : Var) (fix : Bool)
  | set
  | recursive (final : List Var)
  | restore

/-- `swap`, `dup`, `pop`, `uf`, `from_memory`, `store_in_memory`, `recursive_state` and `restore_state` (src/greedy/greedy_new_version.py:205-431, 576-604): the new
state and the ids returned. `none`: an assertion fails or an exception is raised. `Counter.update` of a string adds its characters (line 401). -/
def call (st : State) : Call → Option (State × List String)
  | .swap x =>
    match st.stack[0]?, st.stack[x]? with
    | some a, some b =>
      if 0 < x then some (checkSolved x (checkSolved 0 { st with stack := (st.stack.set 0 b).set x a }), ["SWAP" ++ toString x]) else none
    | _, _ => none
  | .dup x =>
    match x with
    | 0 => none
    | i + 1 =>
      match st.stack[i]? with
      | none => none
      | some v =>
        let copies := bump st.copies v (-1)
        if copies v = 0 ∧ v ∉ st.toDup then none
        else some (newTop v { st with stack := v :: st.stack, copies := copies, toDup := if copies v = 0 then st.toDup.erase v else st.toDup },
          ["DUP" ++ toString (i + 1)])
  | .pop =>
    match st.stack with
    | [] => none
    | v :: rest => some (oldTop v { st with stack := rest, copies := bump st.copies v 1 }, ["POP"])
  | .uf u size =>
    match consumeN u.inpt.length st with
    | none => none
    | some (vs, st') =>
      if (if u.commutative then vs.isPerm u.inpt else decide (vs = u.inpt)) then some (u.outpt.foldl (insertElement u size) st', [u.id]) else none
  | .get v fix =>
    let st' := newTop v { st with stack := v :: st.stack, copies := bump st.copies v (-1) }
    some ({ st' with
      toFix := if fix then v :: st'.toFix else st'.toFix
      gets := fun k => st'.gets k + (v.toList.map String.singleton).count k }, ["VGET(" ++ v ++ ")"])
  | .set =>
    match st.stack with
    | [] => none
    | v :: rest => some (oldTop v { st with stack := rest, inMemory := v :: st.inMemory, copies := bump st.copies v 1 }, ["VSET(" ++ v ++ ")"])
  | .recursive final => some (determineSolved { st with saved := st.final :: st.saved, final := final }, [])
  | .restore =>
    match st.saved with
    | [] => none
    | f :: fs => some (determineSolved { st with final := f, saved := fs }, [])

/-- A sequence of calls, as the scheduler makes them (src/greedy/greedy_new_version.py:840-913): the state and the schedule. -/
def play : State → List Call → Option (State × List String)
  | st, [] => some (st, [])
  | st, c :: cs => (call st c).bind fun r => (play r.1 cs).map fun q => (q.1, r.2 ++ q.2)

/-- `_compute_var_total_uses` (src/greedy/greedy_new_version.py:651-670): the occurrences in the final stack and as an argument, without those of the initial stack. -/
def totalUses (tab : List UInstr) (stack final : List Var) (v : Var) : Int :=
  (final.count v : Int) + ((tab.map fun u => u.inpt.count v).sum : Nat) - (stack.count v : Int)

/-! ### Specification -/

/-- The element of the stack at the height of position `j` of the final stack is not the one that is wanted there: both stacks are compared from the bottom. -/
def Misplaced (stack final : List Var) (j : Nat) : Prop :=
  j < final.length ∧ stack.reverse[final.length - 1 - j]? ≠ final[j]?

/-- The instructions that have been computed. -/
def instrs : List Call → List UInstr
  | [] => []
  | .uf u _ :: cs => u :: instrs cs
  | _ :: cs => instrs cs

/-- The variables that have been retrieved from memory. -/
def retrieved : List Call → List Var
  | [] => []
  | .get v _ :: cs => v :: retrieved cs
  | _ :: cs => retrieved cs

/-! ### Proofs: the positions -/

theorem mem_afterLast {ns : List Nat} {m : Nat} (h : afterLast ns = m + 1) : m ∈ ns := by
  unfold afterLast at h
  split at h
  · cases h
  · next k hk =>
    have : k = m := by omega
    subst this
    exact (max?_eq_some_iff.1 hk).1

@[simp] theorem mem_addSolved {i j : Nat} {st : State} : j ∈ (addSolved i st).notSolved ↔ j ∈ st.notSolved ∧ j ≠ i := by
  unfold addSolved
  split
  · simp
  · next h => exact ⟨fun hj => ⟨hj, fun e => h (e ▸ hj)⟩, And.left⟩

@[simp] theorem mem_removeSolved {i : Int} {j : Nat} {st : State} : j ∈ (removeSolved i st).notSolved ↔ j ∈ st.notSolved ∨ (j : Int) = i := by
  unfold removeSolved
  split
  · next h =>
    dsimp only
    have e : ((j : Int) = i) ↔ j = i.toNat := by omega
    rw [e]
    split
    · next hm => exact ⟨.inl, fun h => h.elim id fun e => e ▸ hm⟩
    · simp [or_comm]
  · next h =>
    exact ⟨.inl, fun h' => h'.elim id fun e => absurd e (by omega)⟩

theorem addSolved_fields (i : Nat) (st : State) : (addSolved i st).stack = st.stack ∧ (addSolved i st).final = st.final ∧ (addSolved i st).copies = st.copies ∧
    (addSolved i st).computed = st.computed ∧ (addSolved i st).gets = st.gets ∧ (addSolved i st).saved = st.saved := by
  unfold addSolved
  split <;> simp

theorem removeSolved_fields (i : Int) (st : State) : (removeSolved i st).stack = st.stack ∧ (removeSolved i st).final = st.final ∧
    (removeSolved i st).copies = st.copies ∧ (removeSolved i st).computed = st.computed ∧ (removeSolved i st).gets = st.gets ∧
    (removeSolved i st).saved = st.saved ∧ (removeSolved i st).maxSolved = st.maxSolved := by
  unfold removeSolved
  split <;> simp

theorem checkSolved_fields (i : Nat) (st : State) : (checkSolved i st).stack = st.stack ∧ (checkSolved i st).final = st.final ∧
    (checkSolved i st).copies = st.copies ∧ (checkSolved i st).computed = st.computed ∧ (checkSolved i st).gets = st.gets ∧
    (checkSolved i st).saved = st.saved := by
  obtain ⟨r1, r2, r3, r4, r5, r6, -⟩ := removeSolved_fields (posInFinal i st.stack st.final) st
  obtain ⟨a1, a2, a3, a4, a5, a6⟩ := addSolved_fields (posInFinal i st.stack st.final).toNat (removeSolved (posInFinal i st.stack st.final) st)
  unfold checkSolved
  dsimp only
  split
  · exact ⟨a1.trans r1, a2.trans r2, a3.trans r3, a4.trans r4, a5.trans r5, a6.trans r6⟩
  · exact ⟨r1, r2, r3, r4, r5, r6⟩

/-- The largest position is one of the set. -/
def MaxOk (st : State) : Prop := ∀ m, st.maxSolved = m + 1 → m ∈ st.notSolved

theorem MaxOk.add {st : State} (h : MaxOk st) (i : Nat) : MaxOk (addSolved i st) := by
  intro m hm
  unfold addSolved at hm ⊢
  split at hm
  · next hi =>
    rw [if_pos hi]
    dsimp only at hm ⊢
    split at hm
    · exact mem_afterLast hm
    · next hn =>
      simp only [ne_eq, decide_not, mem_filter, Bool.not_eq_eq_eq_not, Bool.not_true, decide_eq_false_iff_not]
      exact ⟨h m hm, fun e => hn (by omega)⟩
  · next hi =>
    rw [if_neg hi]
    exact h m hm

theorem MaxOk.remove {st : State} (h : MaxOk st) (i : Int) : MaxOk (removeSolved i st) := by
  intro m hm
  rw [(removeSolved_fields i st).2.2.2.2.2.2] at hm
  exact mem_removeSolved.2 (.inl (h m hm))

theorem MaxOk.check {st : State} (h : MaxOk st) (i : Nat) : MaxOk (checkSolved i st) := by
  unfold checkSolved
  dsimp only
  split
  · exact (h.remove _).add _
  · exact h.remove _

theorem misplaced_iff {S F : List Var} {j : Nat} :
    Misplaced S F j ↔ j < F.length ∧ ∀ i, i < S.length → (j : Int) = posInFinal i S F → F[j]? ≠ S[i]? := by
  unfold Misplaced posInFinal
  constructor
  · rintro ⟨hj, h⟩
    refine ⟨hj, fun i hi e he => h ?_⟩
    rw [getElem?_reverse (by omega), he]
    congr 1
    omega
  · rintro ⟨hj, h⟩
    refine ⟨hj, fun e => ?_⟩
    by_cases hh : F.length - 1 - j < S.length
    · rw [getElem?_reverse hh] at e
      exact h (S.length - 1 - (F.length - 1 - j)) (by omega) (by omega) e.symm
    · rw [getElem?_eq_none (by simpa using hh), getElem?_eq_getElem hj] at e
      cases e

theorem misplaced_push {v : Var} {S F : List Var} {j : Nat} :
    Misplaced (v :: S) F j ↔ if (j : Int) = posInFinal 0 (v :: S) F then F[j]? ≠ some v else Misplaced S F j := by
  unfold Misplaced posInFinal
  simp only [length_cons, reverse_cons]
  split
  · next h =>
    have hj : j < F.length := by omega
    rw [show F.length - 1 - j = S.reverse.length by rw [length_reverse]; omega, getElem?_concat_length]
    exact ⟨fun h => fun e => h.2 e.symm, fun h => ⟨hj, fun e => h e.symm⟩⟩
  · next h =>
    constructor
    · rintro ⟨hj, hm⟩
      refine ⟨hj, fun e => hm ?_⟩
      by_cases hl : F.length - 1 - j < S.reverse.length
      · rw [getElem?_append_left hl, e]
      · rw [getElem?_eq_none (by omega), getElem?_eq_getElem hj] at e
        cases e
    · rintro ⟨hj, hm⟩
      refine ⟨hj, fun e => hm ?_⟩
      by_cases hl : F.length - 1 - j < S.reverse.length
      · rw [← e, getElem?_append_left hl]
      · rw [length_reverse] at hl
        rw [getElem?_eq_none (by simp only [length_append, length_reverse, length_singleton]; omega), getElem?_eq_getElem hj] at e
        cases e

theorem mem_unsolved {S F : List Var} {j : Nat} : j ∈ unsolved S F ↔ Misplaced S F j := by
  unfold unsolved Misplaced
  simp only [mem_filter, mem_range, decide_eq_true_eq, mem_map, not_exists, not_and]
  refine and_congr_right fun hj => ?_
  constructor
  · intro h e
    have hF : F.reverse[F.length - 1 - j]? = F[j]? := by
      rw [getElem?_reverse (by omega)]
      congr 1
      omega
    rw [getElem?_eq_getElem hj] at e hF
    refine h ((F[j], F[j]), F.length - 1 - j) ⟨?_, by simp⟩ (by dsimp only; omega)
    rw [mem_zipIdx_iff_getElem?]
    exact getElem?_zip_eq_some.2 ⟨e, hF⟩
  · rintro h ⟨⟨a, b⟩, k⟩ ⟨hm, hab⟩ e
    simp only at hab e
    subst hab
    rw [mem_zipIdx_iff_getElem?] at hm
    obtain ⟨h1, h2⟩ := getElem?_zip_eq_some.1 hm
    have hk : k < F.length := by simpa using (List.getElem?_eq_some_iff.1 h2).1
    refine h ?_
    rw [show F.length - 1 - j = k by omega, h1, ← h2, getElem?_reverse hk]
    congr 1
    omega

/-- The record of the positions is right. -/
structure Right (st : State) : Prop where
  count : ∀ v, st.computed v = st.stack.count v
  solved : ∀ j, j ∈ st.notSolved ↔ Misplaced st.stack st.final j
  max : MaxOk st

theorem right_determine {st : State} (h : ∀ v, st.computed v = st.stack.count v) : Right (determineSolved st) :=
  ⟨h, fun _ => mem_unsolved, fun _ hm => mem_afterLast hm⟩

theorem newTop_fields (v : Var) (st : State) : (newTop v st).stack = st.stack ∧ (newTop v st).final = st.final ∧ (newTop v st).copies = st.copies ∧
    (newTop v st).gets = st.gets ∧ (newTop v st).saved = st.saved := by
  obtain ⟨a1, a2, a3, a4, a5, a6⟩ := addSolved_fields (posInFinal 0 st.stack st.final).toNat st
  unfold newTop
  dsimp only
  split
  · exact ⟨a1, a2, a3, a5, a6⟩
  · exact ⟨rfl, rfl, rfl, rfl, rfl⟩

theorem oldTop_fields (v : Var) (st : State) : (oldTop v st).stack = st.stack ∧ (oldTop v st).final = st.final ∧ (oldTop v st).copies = st.copies ∧
    (oldTop v st).gets = st.gets ∧ (oldTop v st).saved = st.saved := by
  obtain ⟨a1, a2, a3, a4, a5, a6, -⟩ := removeSolved_fields (posInFinal (-1) st.stack st.final) st
  exact ⟨a1, a2, a3, a5, a6⟩

/-- A new element on top. -/
theorem right_newTop {st st' : State} (h : Right st) {v : Var} (hs : st'.stack = v :: st.stack) (hf : st'.final = st.final)
    (hn : st'.notSolved = st.notSolved) (hm : st'.maxSolved = st.maxSolved) (hc : st'.computed = st.computed) : Right (newTop v st') := by
  obtain ⟨f1, f2, -⟩ := newTop_fields v st'
  have hmax : MaxOk st' := by intro m h1; rw [hn]; exact h.max m (by rw [← hm, h1])
  refine ⟨?_, ?_, ?_⟩
  · intro w
    rw [f1, hs]
    have e : (newTop v st').computed w = if w = v then st'.computed w + 1 else st'.computed w := by
      unfold newTop
      dsimp only
      by_cases hp : 0 ≤ posInFinal 0 st'.stack st'.final ∧ st'.final[(posInFinal 0 st'.stack st'.final).toNat]? = some v
      · rw [if_pos hp, (addSolved_fields _ _).2.2.2.1]
      · rw [if_neg hp]
    rw [e, hc, h.count w, count_cons]
    by_cases hw : w = v
    · subst hw; simp
    · simp [hw, Ne.symm hw]
  · intro j
    rw [f1, f2, hs, hf, misplaced_push, ← h.solved j, ← hn]
    unfold newTop
    dsimp only
    rw [← hf, ← hs]
    by_cases hp : 0 ≤ posInFinal 0 st'.stack st'.final ∧ st'.final[(posInFinal 0 st'.stack st'.final).toNat]? = some v
    · rw [if_pos hp]
      simp only [mem_addSolved]
      by_cases hj : (j : Int) = posInFinal 0 st'.stack st'.final
      · rw [if_pos hj]
        have : j = (posInFinal 0 st'.stack st'.final).toNat := by omega
        exact ⟨fun h => absurd this h.2, fun h => absurd (this ▸ hp.2) h⟩
      · rw [if_neg hj]
        exact ⟨And.left, fun h => ⟨h, fun e => hj (by omega)⟩⟩
    · rw [if_neg hp]
      by_cases hj : (j : Int) = posInFinal 0 st'.stack st'.final
      · rw [if_pos hj]
        have e : j = (posInFinal 0 st'.stack st'.final).toNat := by omega
        refine ⟨fun _ hv => hp ⟨by omega, e ▸ hv⟩, fun _ => ?_⟩
        rw [hn, h.solved j, misplaced_iff]
        rw [hs, hf] at hj
        simp only [posInFinal, length_cons] at hj ⊢
        exact ⟨by omega, fun i hi e => by omega⟩
      · rw [if_neg hj]
  · unfold newTop
    dsimp only
    split
    · exact hmax.add _
    · exact hmax

/-- The top is removed. -/
theorem right_oldTop {st st' : State} (h : Right st) {v : Var} (hs : st.stack = v :: st'.stack) (hf : st'.final = st.final)
    (hn : st'.notSolved = st.notSolved) (hm : st'.maxSolved = st.maxSolved) (hc : st'.computed = st.computed) : Right (oldTop v st') := by
  obtain ⟨f1, f2, -⟩ := oldTop_fields v st'
  have hmax : MaxOk st' := by intro m h1; rw [hn]; exact h.max m (by rw [← hm, h1])
  refine ⟨?_, ?_, hmax.remove _⟩
  · intro w
    rw [f1]
    have e : (oldTop v st').computed w = if w = v then st'.computed w - 1 else st'.computed w := by
      unfold oldTop
      dsimp only
      rw [(removeSolved_fields _ _).2.2.2.1]
    rw [e, hc, h.count w, hs, count_cons]
    by_cases hw : w = v
    · subst hw; simp
    · simp [hw, Ne.symm hw]
  · intro j
    rw [f1, f2]
    show j ∈ (removeSolved _ _).notSolved ↔ _
    rw [mem_removeSolved, hn, h.solved j, hs, misplaced_push, ← hf]
    have e0 : posInFinal 0 (v :: st'.stack) st'.final = posInFinal (-1) st'.stack st'.final := by
      simp only [posInFinal, length_cons]; omega
    rw [e0]
    by_cases hj : (j : Int) = posInFinal (-1) st'.stack st'.final
    · simp only [hj, if_true, or_true, true_iff]
      rw [misplaced_iff]
      simp only [posInFinal] at hj ⊢
      exact ⟨by omega, fun i hi e => by omega⟩
    · simp [hj]

theorem mem_checkSolved {st : State} {i j : Nat} (hi : i < st.stack.length) :
    j ∈ (checkSolved i st).notSolved ↔ if (j : Int) = posInFinal i st.stack st.final then st.final[j]? ≠ st.stack[i]? else j ∈ st.notSolved := by
  unfold checkSolved
  dsimp only
  by_cases hj : (j : Int) = posInFinal i st.stack st.final
  · have e : j = (posInFinal i st.stack st.final).toNat := by omega
    rw [if_pos hj]
    split
    · next h =>
      rw [← e] at h ⊢
      simp only [mem_addSolved, ne_eq, not_true_eq_false, and_false, false_iff, not_not]
      exact h.2.2
    · next h =>
      rw [← e] at h
      simp only [mem_removeSolved, hj, or_true, true_iff]
      refine fun hv => h ⟨by omega, ?_, hv⟩
      simp only [posInFinal] at hj ⊢
      omega
  · rw [if_neg hj]
    split
    · next h =>
      simp only [mem_addSolved, mem_removeSolved, hj, or_false]
      exact ⟨And.left, fun h' => ⟨h', fun e => hj (by omega)⟩⟩
    · simp [hj]

theorem right_swap {st : State} (h : Right st) {x : Nat} {a b : Var} (h0 : st.stack[0]? = some a) (hx : st.stack[x]? = some b) (hx0 : 0 < x) :
    Right (checkSolved x (checkSolved 0 { st with stack := (st.stack.set 0 b).set x a })) := by
  have hxl : x < st.stack.length := (List.getElem?_eq_some_iff.1 hx).1
  generalize hst : ({ st with stack := (st.stack.set 0 b).set x a } : State) = st1
  have e1 : st1.stack = (st.stack.set 0 b).set x a := by rw [← hst]
  have e2 : st1.final = st.final := by rw [← hst]
  have e3 : st1.notSolved = st.notSolved := by rw [← hst]
  have e4 : st1.computed = st.computed := by rw [← hst]
  have hlen : st1.stack.length = st.stack.length := by simp [e1]
  have hmax : MaxOk st1 := by rw [← hst]; exact h.max
  obtain ⟨a1, a2, -, a4, -⟩ := checkSolved_fields 0 st1
  obtain ⟨b1, b2, -, b4, -⟩ := checkSolved_fields x (checkSolved 0 st1)
  have hperm : st1.stack.Perm st.stack := by
    rw [e1]
    obtain ⟨s0, rest, hs⟩ : ∃ s0 rest, st.stack = s0 :: rest := by
      cases hs : st.stack with
      | nil => rw [hs] at hxl; simp at hxl
      | cons s0 rest => exact ⟨s0, rest, rfl⟩
    obtain ⟨y, rfl⟩ : ∃ y, x = y + 1 := ⟨x - 1, by omega⟩
    rw [hs] at h0 hx hxl ⊢
    simp only [getElem?_cons_zero, Option.some.injEq, getElem?_cons_succ] at h0 hx
    subst h0
    simp only [set_cons_zero, set_cons_succ]
    have hyl : y < rest.length := by simpa using hxl
    have hb : b = rest[y] := by
      rw [getElem?_eq_getElem hyl] at hx
      exact (Option.some.inj hx).symm
    have p1 : (rest.set y s0).Perm (s0 :: (rest.take y ++ rest.drop (y + 1))) := by
      rw [set_eq_take_append_cons_drop, if_pos hyl]
      exact perm_middle
    have p2 : (rest[y] :: (rest.take y ++ rest.drop (y + 1))).Perm rest := by
      have e : rest = rest.take y ++ rest[y] :: rest.drop (y + 1) := by simp
      exact perm_middle.symm.trans (Perm.of_eq e.symm)
    rw [hb]
    exact ((p1.cons _).trans (Perm.swap _ _ _)).trans (p2.cons _)
  refine ⟨?_, ?_, (hmax.check 0).check x⟩
  · intro v
    rw [b4, a4, e4, h.count v, b1, a1, hperm.count_eq]
  · intro j
    rw [b1, b2, a1, a2, mem_checkSolved (by rw [a1, hlen]; exact hxl), a1, a2, mem_checkSolved (by omega), e3, h.solved j, e2]
    have g0 : st1.stack[0]? = some b := by
      rw [e1, getElem?_set_ne (by omega), getElem?_set_self (by omega)]
    have gx : st1.stack[x]? = some a := by
      rw [e1, getElem?_set_self (by simpa using hxl)]
    have gi : ∀ i, i ≠ 0 → i ≠ x → st1.stack[i]? = st.stack[i]? := by
      intro i h1 h2
      rw [e1, getElem?_set_ne (by omega), getElem?_set_ne (by omega)]
    have hpos : ∀ i : Nat, posInFinal i st1.stack st.final = posInFinal i st.stack st.final := by
      intro i; simp only [posInFinal, hlen]
    rw [misplaced_iff (S := st1.stack), misplaced_iff (S := st.stack)]
    by_cases hjx : (j : Int) = posInFinal x st1.stack st.final
    · rw [if_pos hjx]
      refine ⟨fun hn => ⟨?_, fun i hi e => ?_⟩, fun hn => hn.2 x (by omega) hjx⟩
      · simp only [posInFinal] at hjx; omega
      · have : i = x := by simp only [posInFinal] at hjx e; omega
        subst this; exact hn
    · rw [if_neg hjx]
      by_cases hj0 : (j : Int) = posInFinal ((0 : Nat) : Int) st1.stack st.final
      · rw [if_pos hj0]
        refine ⟨fun hn => ⟨?_, fun i hi e => ?_⟩, fun hn => hn.2 0 (by omega) hj0⟩
        · simp only [posInFinal] at hj0; omega
        · have : i = 0 := by simp only [posInFinal] at hj0 e; omega
          subst this; exact hn
      · rw [if_neg hj0]
        refine and_congr_right fun hj => forall_congr' fun i => ?_
        rw [hlen, hpos]
        refine imp_congr_right fun hi => imp_congr_right fun e => ?_
        rw [gi i (fun h => hj0 (by subst h; rw [hpos]; exact e)) (fun h => hjx (by subst h; rw [hpos]; exact e))]

theorem right_consume {n : Nat} {st st' : State} {vs : List Var} (h : Right st) (hc : consumeN n st = some (vs, st')) :
    Right st' ∧ st.stack = vs ++ st'.stack ∧ st'.copies = st.copies ∧ st'.gets = st.gets ∧ vs.length = n := by
  induction n generalizing st vs with
  | zero =>
    simp only [consumeN, Option.some.injEq, Prod.mk.injEq] at hc
    obtain ⟨rfl, rfl⟩ := hc
    exact ⟨h, rfl, rfl, rfl, rfl⟩
  | succ n ih =>
    unfold consumeN at hc
    split at hc
    · cases hc
    · next v rest hs =>
      simp only [Option.map_eq_some_iff, Prod.mk.injEq] at hc
      obtain ⟨⟨ws, st2⟩, h2, rfl, rfl⟩ := hc
      have hr := right_oldTop (st' := { st with stack := rest }) h hs rfl rfl rfl rfl
      obtain ⟨f1, -, f3, f4, -⟩ := oldTop_fields v { st with stack := rest }
      obtain ⟨i1, i2, i3, i4, i5⟩ := ih hr h2
      refine ⟨i1, ?_, i3.trans f3, i4.trans f4, by simp [i5]⟩
      rw [f1] at i2
      dsimp only at i2 ⊢
      rw [hs, i2]; rfl

theorem right_insert {u : UInstr} {size : Nat} : ∀ (vs : List Var) {st : State}, Right st →
    Right (vs.foldl (insertElement u size) st) ∧ (vs.foldl (insertElement u size) st).stack = vs.reverse ++ st.stack ∧
      (∀ w, (vs.foldl (insertElement u size) st).copies w = st.copies w - vs.count w) ∧ (vs.foldl (insertElement u size) st).gets = st.gets := by
  intro vs
  induction vs with
  | nil => exact fun h => ⟨h, rfl, fun _ => by simp, rfl⟩
  | cons v vs ih =>
    intro st h
    have hr : Right (insertElement u size st v) := right_newTop h rfl rfl rfl rfl rfl
    obtain ⟨f1, -, f3, f4, -⟩ := newTop_fields v { st with
      stack := v :: st.stack
      copies := bump st.copies v (-1)
      toDup := if !cheap u size ∧ bump st.copies v (-1) v > 0 then st.toDup ++ [v] else st.toDup }
    obtain ⟨i1, i2, i3, i4⟩ := ih hr
    refine ⟨i1, ?_, fun w => ?_, i4.trans f4⟩
    · rw [foldl_cons, i2]
      show _ ++ (newTop v _).stack = _
      rw [f1]; simp
    · rw [foldl_cons, i3]
      show (newTop v _).copies w - _ = _
      rw [f3, count_cons]
      simp only [bump]
      by_cases hw : w = v
      · subst hw; simp; omega
      · simp [hw, Ne.symm hw]

/-- What a call consumes. -/
def used : Call → List Var
  | .uf u _ => u.inpt
  | _ => []

theorem right_call {st st' : State} {c : Call} {ids : List String} (h : Right st) (hc : call st c = some (st', ids)) :
    Right st' ∧ ∀ v, st'.copies v + st'.stack.count v + (used c).count v = st.copies v + st.stack.count v := by
  cases c with
  | swap x =>
    simp only [call] at hc
    split at hc
    · next a b h0 hx =>
      split at hc
      · next hx0 =>
        simp only [Option.some.injEq, Prod.mk.injEq] at hc
        obtain ⟨rfl, -⟩ := hc
        have hr := right_swap h h0 hx hx0
        refine ⟨hr, fun v => ?_⟩
        have := hr.count v
        obtain ⟨a1, -, a3, a4, -⟩ := checkSolved_fields 0 { st with stack := (st.stack.set 0 b).set x a }
        obtain ⟨b1, -, b3, b4, -⟩ := checkSolved_fields x (checkSolved 0 { st with stack := (st.stack.set 0 b).set x a })
        rw [b4, a4] at this
        rw [b3, a3, ← this]
        dsimp only
        rw [h.count v]; simp [used]
      · cases hc
    · cases hc
  | dup x =>
    simp only [call] at hc
    split at hc
    · cases hc
    · next i =>
      split at hc
      · cases hc
      · next v hv =>
        split at hc
        · cases hc
        · simp only [Option.some.injEq, Prod.mk.injEq] at hc
          obtain ⟨rfl, -⟩ := hc
          refine ⟨right_newTop h rfl rfl rfl rfl rfl, fun w => ?_⟩
          rw [(newTop_fields _ _).1, (newTop_fields _ _).2.2.1]
          simp only [bump, count_cons, used, count_nil]
          by_cases hw : w = v
          · subst hw; simp; omega
          · simp [hw, Ne.symm hw]
  | pop =>
    simp only [call] at hc
    split at hc
    · cases hc
    · next v rest hs =>
      simp only [Option.some.injEq, Prod.mk.injEq] at hc
      obtain ⟨rfl, -⟩ := hc
      refine ⟨right_oldTop (v := v) h hs rfl rfl rfl rfl, fun w => ?_⟩
      rw [(oldTop_fields _ _).1, (oldTop_fields _ _).2.2.1, hs]
      simp only [bump, count_cons, used, count_nil]
      by_cases hw : w = v
      · subst hw; simp; omega
      · simp [hw, Ne.symm hw]
  | uf u size =>
    simp only [call] at hc
    split at hc
    · cases hc
    · next vs st1 h1 =>
      by_cases hp : (if u.commutative then vs.isPerm u.inpt else decide (vs = u.inpt)) = true
      · rw [if_pos hp] at hc
        simp only [Option.some.injEq, Prod.mk.injEq] at hc
        obtain ⟨rfl, -⟩ := hc
        obtain ⟨c1, c2, c3, -, -⟩ := right_consume h h1
        obtain ⟨i1, i2, i3, -⟩ := right_insert (u := u) (size := size) u.outpt c1
        refine ⟨i1, fun w => ?_⟩
        have hcount : vs.count w = u.inpt.count w := by
          split at hp
          · exact (isPerm_iff.1 hp).count_eq w
          · rw [of_decide_eq_true hp]
        rw [i2, i3, c3, c2, count_append, count_append, count_reverse, used, ← hcount]
        push_cast
        omega
      · rw [if_neg hp] at hc
        cases hc
  | get v fix =>
    simp only [call, Option.some.injEq, Prod.mk.injEq] at hc
    obtain ⟨rfl, -⟩ := hc
    have hr : Right (newTop v { st with stack := v :: st.stack, copies := bump st.copies v (-1) }) := right_newTop h rfl rfl rfl rfl rfl
    refine ⟨⟨hr.count, hr.solved, hr.max⟩, fun w => ?_⟩
    dsimp only
    rw [(newTop_fields _ _).1, (newTop_fields _ _).2.2.1]
    simp only [bump, count_cons, used, count_nil]
    by_cases hw : w = v
    · subst hw; simp; omega
    · simp [hw, Ne.symm hw]
  | set =>
    simp only [call] at hc
    split at hc
    · cases hc
    · next v rest hs =>
      simp only [Option.some.injEq, Prod.mk.injEq] at hc
      obtain ⟨rfl, -⟩ := hc
      refine ⟨right_oldTop (v := v) h hs rfl rfl rfl rfl, fun w => ?_⟩
      rw [(oldTop_fields _ _).1, (oldTop_fields _ _).2.2.1, hs]
      simp only [bump, count_cons, used, count_nil]
      by_cases hw : w = v
      · subst hw; simp; omega
      · simp [hw, Ne.symm hw]
  | recursive final =>
    simp only [call, Option.some.injEq, Prod.mk.injEq] at hc
    obtain ⟨rfl, -⟩ := hc
    exact ⟨right_determine h.count, fun w => by simp [determineSolved, used]⟩
  | restore =>
    simp only [call] at hc
    split at hc
    · cases hc
    · simp only [Option.some.injEq, Prod.mk.injEq] at hc
      obtain ⟨rfl, -⟩ := hc
      exact ⟨right_determine h.count, fun w => by simp [determineSolved, used]⟩

theorem right_play : ∀ (cs : List Call) {st st' : State} {ids : List String}, Right st → play st cs = some (st', ids) →
    Right st' ∧ ∀ v, st'.copies v + st'.stack.count v + (((instrs cs).map fun u => u.inpt.count v).sum : Nat) = st.copies v + st.stack.count v := by
  intro cs
  induction cs with
  | nil =>
    intro st st' ids h hp
    simp only [play, Option.some.injEq, Prod.mk.injEq] at hp
    obtain ⟨rfl, -⟩ := hp
    exact ⟨h, fun v => by simp [instrs]⟩
  | cons c cs ih =>
    intro st st' ids h hp
    simp only [play, Option.bind_eq_some_iff, Option.map_eq_some_iff, Prod.mk.injEq] at hp
    obtain ⟨⟨st1, ids1⟩, h1, ⟨st2, ids2⟩, h2, rfl, -⟩ := hp
    obtain ⟨r1, k1⟩ := right_call h h1
    obtain ⟨r2, k2⟩ := ih r1 h2
    refine ⟨r2, fun v => ?_⟩
    rw [← k1 v, ← k2 v]
    cases c <;> simp only [instrs, used, map_cons, sum_cons, count_nil] <;> push_cast <;> omega

theorem right_init (stack final : List Var) (copies : Var → Int) : Right (init stack final copies) := right_determine fun _ => rfl

/-! ### Proofs: the schedule -/

theorem consume_prefix : ∀ (xs rest : List Var), consume xs (xs ++ rest) = some rest := by
  intro xs
  induction xs with
  | nil => exact fun _ => rfl
  | cons x xs ih => exact fun rest => by simp [consume, ih]

theorem consumeComm_perm {vs inpt rest : List Var} (hp : vs.Perm inpt) (h2 : inpt.length = 2) : consumeComm inpt (vs ++ rest) = some rest := by
  match inpt, vs, h2, hp with
  | [a, b], [c, d], _, hp =>
    have : (c = a ∧ d = b) ∨ (c = b ∧ d = a) := by
      have hc : c = a ∨ c = b := by simpa using hp.mem_iff.1 (by simp : c ∈ [c, d])
      rcases hc with rfl | rfl
      · have := (perm_cons _).1 hp
        rw [singleton_perm_singleton] at this
        exact .inl ⟨rfl, this⟩
      · have := (perm_cons _).1 (hp.trans (Perm.swap _ _ _))
        rw [singleton_perm_singleton] at this
        exact .inr ⟨rfl, this⟩
    simp [consumeComm, this]
  | [a, b], [], _, hp => simpa using hp.length_eq
  | [a, b], [_], _, hp => simpa using hp.length_eq
  | [a, b], _ :: _ :: _ :: _, _, hp => simpa using hp.length_eq

/-- What is asked of the instructions of a specification: different ids, that are read as instructions; commutative instructions have two arguments; the results
are the same in both orders; and names are read as names. -/
structure Fit (tab : List UInstr) : Prop where
  distinct : (tab.map (·.id)).Nodup
  ids : ∀ u ∈ tab, classify u.id = some (.instr u.id)
  comm : ∀ u ∈ tab, u.commutative = true → u.inpt.length = 2
  results : ∀ u ∈ tab, u.outpt.reverse = u.outpt
  plain : ∀ u ∈ tab, ∀ v ∈ u.outpt, Plain v

theorem Fit.first {tab : List UInstr} (h : Fit tab) {u : UInstr} (hu : u ∈ tab) : ∃ l, tab.filter (fun w => w.id == u.id) = u :: l := by
  cases hf : tab.filter (fun w => w.id == u.id) with
  | nil =>
    have : u ∈ tab.filter (fun w => w.id == u.id) := by simp [hu]
    rw [hf] at this
    cases this
  | cons w l =>
    have hw : w ∈ tab.filter (fun w => w.id == u.id) := by rw [hf]; simp
    simp only [mem_filter, beq_iff_eq] at hw
    exact ⟨l, by rw [inj_on_of_nodup_map h.distinct hw.1 hu hw.2]⟩

theorem exec_call {tab : List UInstr} (ht : Fit tab) {st st' : State} {c : Call} {ids : List String} (hr : Right st) (hc : call st c = some (st', ids))
    (hu : ∀ u ∈ instrs [c], u ∈ tab) (hg : ∀ v ∈ retrieved [c], Plain v) (hp : ∀ v ∈ st.stack, Plain v) :
    execIds tab ids st.stack = some st'.stack ∧ ∀ v ∈ st'.stack, Plain v := by
  cases c with
  | swap x =>
    simp only [call] at hc
    split at hc
    · next a b h0 hx =>
      split at hc
      · next hx0 =>
        simp only [Option.some.injEq, Prod.mk.injEq] at hc
        obtain ⟨rfl, rfl⟩ := hc
        rw [(checkSolved_fields _ _).1, (checkSolved_fields _ _).1]
        refine ⟨by simp only [execIds, execId, classify_swap, Option.bind_some, execOp, h0, hx], fun v hv => ?_⟩
        rcases mem_or_eq_of_mem_set hv with hv | rfl
        · rcases mem_or_eq_of_mem_set hv with hv | rfl
          · exact hp v hv
          · exact hp _ (mem_of_getElem? hx)
        · exact hp _ (mem_of_getElem? h0)
      · cases hc
    · cases hc
  | dup x =>
    simp only [call] at hc
    split at hc
    · cases hc
    · next i =>
      split at hc
      · cases hc
      · next v hv =>
        split at hc
        · cases hc
        · simp only [Option.some.injEq, Prod.mk.injEq] at hc
          obtain ⟨rfl, rfl⟩ := hc
          rw [(newTop_fields _ _).1]
          refine ⟨by simp only [execIds, execId, classify_dup, Option.bind_some, execOp, Nat.add_sub_cancel, hv]; simp, fun w hw => ?_⟩
          rcases mem_cons.1 hw with rfl | hw
          · exact hp _ (mem_of_getElem? hv)
          · exact hp w hw
  | pop =>
    simp only [call] at hc
    split at hc
    · cases hc
    · next v rest hs =>
      simp only [Option.some.injEq, Prod.mk.injEq] at hc
      obtain ⟨rfl, rfl⟩ := hc
      rw [(oldTop_fields _ _).1, hs]
      have : classify "POP" = some .pop := by decide +kernel
      exact ⟨by simp [execIds, execId, this, execOp], fun w hw => hp w (by rw [hs]; exact mem_cons_of_mem _ hw)⟩
  | uf u size =>
    have hu : u ∈ tab := hu u (by simp [instrs])
    simp only [call] at hc
    split at hc
    · cases hc
    · next vs st1 h1 =>
      by_cases hq : (if u.commutative then vs.isPerm u.inpt else decide (vs = u.inpt)) = true
      · rw [if_pos hq] at hc
        simp only [Option.some.injEq, Prod.mk.injEq] at hc
        obtain ⟨rfl, rfl⟩ := hc
        obtain ⟨c1, c2, -, -, -⟩ := right_consume hr h1
        obtain ⟨-, i2, -, -⟩ := right_insert (u := u) (size := size) u.outpt c1
        rw [i2, ht.results u hu]
        obtain ⟨l, hl⟩ := ht.first hu
        refine ⟨?_, fun w hw => ?_⟩
        · have : (if u.commutative then consumeComm u.inpt st.stack else consume u.inpt st.stack) = some st1.stack := by
            rw [c2]
            split at hq
            · next hcm => rw [if_pos hcm]; exact consumeComm_perm (isPerm_iff.1 hq) (ht.comm u hu hcm)
            · next hcm => rw [if_neg hcm, of_decide_eq_true hq]; exact consume_prefix _ _
          simp [execIds, execId, ht.ids u hu, execOp, hl, this]
        · rcases mem_append.1 hw with hw | hw
          · exact ht.plain u hu w hw
          · exact hp w (by rw [c2]; exact mem_append_right _ hw)
      · rw [if_neg hq] at hc
        cases hc
  | get v fix =>
    have hv : Plain v := hg v (by simp [retrieved])
    simp only [call, Option.some.injEq, Prod.mk.injEq] at hc
    obtain ⟨rfl, rfl⟩ := hc
    dsimp only
    rw [(newTop_fields _ _).1]
    refine ⟨by simp [execIds, execId, classify_get hv, execOp], fun w hw => ?_⟩
    rcases mem_cons.1 hw with rfl | hw
    · exact hv
    · exact hp w hw
  | set =>
    simp only [call] at hc
    split at hc
    · cases hc
    · next v rest hs =>
      simp only [Option.some.injEq, Prod.mk.injEq] at hc
      obtain ⟨rfl, rfl⟩ := hc
      rw [(oldTop_fields _ _).1, hs]
      have hv : Plain v := hp v (by simp [hs])
      exact ⟨by simp [execIds, execId, classify_set hv, execOp], fun w hw => hp w (by rw [hs]; exact mem_cons_of_mem _ hw)⟩
  | recursive final =>
    simp only [call, Option.some.injEq, Prod.mk.injEq] at hc
    obtain ⟨rfl, rfl⟩ := hc
    exact ⟨rfl, hp⟩
  | restore =>
    simp only [call] at hc
    split at hc
    · cases hc
    · simp only [Option.some.injEq, Prod.mk.injEq] at hc
      obtain ⟨rfl, rfl⟩ := hc
      exact ⟨rfl, hp⟩

theorem execIds_app {tab : List UInstr} : ∀ (xs ys : List String) (st : List Var), execIds tab (xs ++ ys) st = (execIds tab xs st).bind (execIds tab ys) := by
  intro xs ys
  induction xs with
  | nil => exact fun _ => rfl
  | cons x xs ih =>
    intro st
    simp only [cons_append, execIds, Option.bind_assoc]
    congr 1
    funext s
    exact ih s

theorem instrs_cons (c : Call) (cs : List Call) : instrs (c :: cs) = instrs [c] ++ instrs cs := by cases c <;> rfl

theorem retrieved_cons (c : Call) (cs : List Call) : retrieved (c :: cs) = retrieved [c] ++ retrieved cs := by cases c <;> rfl

theorem exec_play {tab : List UInstr} (ht : Fit tab) : ∀ (cs : List Call) {st st' : State} {ids : List String}, Right st → play st cs = some (st', ids) →
    (∀ u ∈ instrs cs, u ∈ tab) → (∀ v ∈ retrieved cs, Plain v) → (∀ v ∈ st.stack, Plain v) → execIds tab ids st.stack = some st'.stack := by
  intro cs
  induction cs with
  | nil =>
    intro st st' ids _ hp _ _ _
    simp only [play, Option.some.injEq, Prod.mk.injEq] at hp
    obtain ⟨rfl, rfl⟩ := hp
    rfl
  | cons c cs ih =>
    intro st st' ids hr hp hu hg hs
    simp only [play, Option.bind_eq_some_iff, Option.map_eq_some_iff, Prod.mk.injEq] at hp
    obtain ⟨⟨st1, ids1⟩, h1, ⟨st2, ids2⟩, h2, rfl, rfl⟩ := hp
    rw [instrs_cons] at hu
    rw [retrieved_cons] at hg
    obtain ⟨e1, p1⟩ := exec_call ht hr h1 (fun u h => hu u (mem_append_left _ h)) (fun v h => hg v (mem_append_left _ h)) hs
    rw [execIds_app, e1]
    exact ih (right_call hr h1).1 h2 (fun u h => hu u (mem_append_right _ h)) (fun v h => hg v (mem_append_right _ h)) p1

/-! ### Proofs: the number of loads -/

theorem gets_call {st st' : State} {c : Call} {ids : List String} (hr : Right st) (hc : call st c = some (st', ids)) (k : String) :
    st'.gets k = st.gets k + ((retrieved [c]).flatMap fun v => v.toList.map String.singleton).count k := by
  cases c with
  | swap x =>
    simp only [call] at hc
    split at hc
    · split at hc
      · simp only [Option.some.injEq, Prod.mk.injEq] at hc
        obtain ⟨rfl, -⟩ := hc
        rw [(checkSolved_fields _ _).2.2.2.2.1, (checkSolved_fields _ _).2.2.2.2.1]
        simp [retrieved]
      · cases hc
    · cases hc
  | dup x =>
    simp only [call] at hc
    split at hc
    · cases hc
    · split at hc
      · cases hc
      · split at hc
        · cases hc
        · simp only [Option.some.injEq, Prod.mk.injEq] at hc
          obtain ⟨rfl, -⟩ := hc
          rw [(newTop_fields _ _).2.2.2.1]
          simp [retrieved]
  | pop =>
    simp only [call] at hc
    split at hc
    · cases hc
    · simp only [Option.some.injEq, Prod.mk.injEq] at hc
      obtain ⟨rfl, -⟩ := hc
      rw [(oldTop_fields _ _).2.2.2.1]
      simp [retrieved]
  | uf u size =>
    simp only [call] at hc
    split at hc
    · cases hc
    · next vs st1 h1 =>
      by_cases hq : (if u.commutative then vs.isPerm u.inpt else decide (vs = u.inpt)) = true
      · rw [if_pos hq] at hc
        simp only [Option.some.injEq, Prod.mk.injEq] at hc
        obtain ⟨rfl, -⟩ := hc
        obtain ⟨c1, -, -, c4, -⟩ := right_consume hr h1
        rw [(right_insert (u := u) (size := size) u.outpt c1).2.2.2, c4]
        simp [retrieved]
      · rw [if_neg hq] at hc
        cases hc
  | get v fix =>
    simp only [call, Option.some.injEq, Prod.mk.injEq] at hc
    obtain ⟨rfl, -⟩ := hc
    dsimp only
    rw [(newTop_fields _ _).2.2.2.1]
    simp [retrieved]
  | set =>
    simp only [call] at hc
    split at hc
    · cases hc
    · simp only [Option.some.injEq, Prod.mk.injEq] at hc
      obtain ⟨rfl, -⟩ := hc
      rw [(oldTop_fields _ _).2.2.2.1]
      simp [retrieved]
  | recursive final =>
    simp only [call, Option.some.injEq, Prod.mk.injEq] at hc
    obtain ⟨rfl, -⟩ := hc
    simp [retrieved, determineSolved]
  | restore =>
    simp only [call] at hc
    split at hc
    · cases hc
    · simp only [Option.some.injEq, Prod.mk.injEq] at hc
      obtain ⟨rfl, -⟩ := hc
      simp [retrieved, determineSolved]

theorem gets_play : ∀ (cs : List Call) {st st' : State} {ids : List String}, Right st → play st cs = some (st', ids) → ∀ k,
    st'.gets k = st.gets k + ((retrieved cs).flatMap fun v => v.toList.map String.singleton).count k := by
  intro cs
  induction cs with
  | nil =>
    intro st st' ids _ hp k
    simp only [play, Option.some.injEq, Prod.mk.injEq] at hp
    obtain ⟨rfl, -⟩ := hp
    simp [retrieved]
  | cons c cs ih =>
    intro st st' ids hr hp k
    simp only [play, Option.bind_eq_some_iff, Option.map_eq_some_iff, Prod.mk.injEq] at hp
    obtain ⟨⟨st1, ids1⟩, h1, ⟨st2, ids2⟩, h2, rfl, -⟩ := hp
    rw [ih (right_call hr h1).1 h2 k, gets_call hr h1 k, retrieved_cons c cs, flatMap_append, count_append, Nat.add_assoc]

/-! ### C101 -/

variable {stack final : List Var} {copies : Var → Int} {tab : List UInstr} {cs : List Call} {st : State} {ids : List String}

/-- **C101.** After any calls, the state records how often every variable is in the stack, and which positions of the final stack do not hold what is wanted; and
the position above which it looks for misplaced elements is misplaced, unless it is none. -/
theorem state_right (h : play (init stack final copies) cs = some (st, ids)) :
    (∀ v, st.computed v = st.stack.count v) ∧ (∀ j, j ∈ st.notSolved ↔ Misplaced st.stack st.final j) ∧
      ∀ m, st.maxSolved = m + 1 → Misplaced st.stack st.final m := by
  obtain ⟨hr, -⟩ := right_play cs (right_init stack final copies) h
  exact ⟨hr.count, hr.solved, fun m hm => (hr.solved m).1 (hr.max m hm)⟩

/-- **C101.** The copies that are still needed of a variable, those in the stack and those that have been consumed are together what was needed at the beginning. -/
theorem copies_kept (h : play (init stack final copies) cs = some (st, ids)) (v : Var) :
    st.copies v + st.stack.count v + (((instrs cs).map fun u => u.inpt.count v).sum : Nat) = copies v + stack.count v :=
  (right_play cs (right_init stack final copies) h).2 v

/-- **C101.** Once every instruction has been computed exactly once, no copy is needed and none is to be removed if and only if the stack has the elements of the
final stack, in some order. -/
theorem copies_done (h : play (init stack final (totalUses tab stack final)) cs = some (st, ids)) (hall : (instrs cs).Perm tab) :
    (∀ v, st.copies v = 0) ↔ st.stack.Perm final := by
  rw [perm_iff_count]
  refine forall_congr' fun v => ?_
  have := copies_kept h v
  rw [(hall.map fun u => u.inpt.count v).sum_nat, totalUses] at this
  omega

/-- **C101.** The validator of schedules (C01) executes the schedule and gets the stack of the state. -/
theorem schedule_executes_partial (ht : Fit tab) (h : play (init stack final copies) cs = some (st, ids)) (hu : ∀ u ∈ instrs cs, u ∈ tab)
    (hg : ∀ v ∈ retrieved cs, Plain v) (hs : ∀ v ∈ stack, Plain v) : execIds tab ids stack = some st.stack :=
  exec_play ht cs (right_init stack final copies) h hu hg hs

/-- **C101.** The counter of loads counts how often every variable has been retrieved if and only if all retrieved names have one character. -/
theorem gets_right_iff (h : play (init stack final copies) cs = some (st, ids)) :
    (∀ v, st.gets v = (retrieved cs).count v) ↔ ∀ v ∈ retrieved cs, v.length = 1 := by
  have hk : ∀ k, st.gets k = ((retrieved cs).flatMap fun v => v.toList.map String.singleton).count k := by
    intro k
    rw [gets_play cs (right_init stack final copies) h k]
    simp [init, determineSolved]
  constructor
  · intro hall v hv
    have h1 : 0 < st.gets v := by
      rw [hall v]
      exact count_pos_iff.2 hv
    rw [hk v] at h1
    have := count_pos_iff.1 h1
    simp only [mem_flatMap, mem_map] at this
    obtain ⟨w, -, c, -, rfl⟩ := this
    simp
  · intro hall v
    rw [hk v]
    congr 1
    generalize retrieved cs = l at hall
    induction l with
    | nil => rfl
    | cons w l ih =>
      have hw : w.toList.map String.singleton = [w] := by
        have : w.toList.length = 1 := hall w (by simp)
        obtain ⟨c, hc⟩ := length_eq_one_iff.1 this
        have : w = String.singleton c := by
          apply String.toList_injective
          rw [hc]; simp
        rw [hc, this]; rfl
      rw [flatMap_cons, hw, ih fun v hv => hall v (mem_cons_of_mem _ hv)]
      rfl

/-! ### Examples -/

/-- `add(a, b)` with both arguments kept below. -/
def addU : UInstr := ⟨"ADD_0", ["a", "b"], ["s"], true, false, "ADD"⟩

def addTab : List UInstr := [addU]

theorem addTab_fit : Fit addTab := by
  refine ⟨by decide, ?_, by decide, by decide, ?_⟩
  · decide +kernel
  · unfold Plain; decide +kernel

def addCalls : List Call := [.dup 2, .dup 2, .uf addU 1, .swap 2]

/-- The calls for the sum of the two elements of the stack, with a `SWAP` at the end, as `solve_permutation` makes it. -/
theorem add_play : ((play (init ["a", "b"] ["b", "a", "s"] (totalUses addTab ["a", "b"] ["b", "a", "s"])) addCalls).map fun r =>
      (r.1.stack, r.1.notSolved, r.1.maxSolved, r.2)) =
    some (["b", "a", "s"], [], 0, ["DUP2", "DUP2", "ADD_0", "SWAP2"]) := by decide +kernel

/-- The validator gets the same stack, by the theorem. -/
example : ∃ st ids, play (init ["a", "b"] ["b", "a", "s"] (totalUses addTab ["a", "b"] ["b", "a", "s"])) addCalls = some (st, ids) ∧
    execIds addTab ids ["a", "b"] = some st.stack ∧ (∀ v, st.copies v = 0) := by
  have hp := add_play
  simp only [Option.map_eq_some_iff] at hp
  obtain ⟨⟨st, ids⟩, h, he⟩ := hp
  simp only [Prod.mk.injEq] at he
  refine ⟨st, ids, h, schedule_executes_partial addTab_fit h (by decide) (by decide) (by unfold Plain; decide +kernel), ?_⟩
  exact (copies_done h (by exact Perm.refl _)).2 (by rw [he.1])

/-- **C101, refuted in part.** The position that should be the deepest misplaced one is not updated when an element is moved away: after a `POP` of the only
element, which was in its place, the state says that everything below position 0 is in its place. -/
theorem max_solved_wrong : (play (init ["a"] ["a"] (fun _ => 0)) [.pop]).map (fun r => (r.1.stack, r.1.notSolved, r.1.maxSolved)) = some ([], [0], 0) := by
  decide +kernel

/-- **C101, refuted in part.** The counter of loads counts characters: after two loads of `s1`, it has no entry for it. -/
theorem gets_wrong : (play (init [] ["s1", "s1"] (fun _ => 2)) [.get "s1" true, .get "s1" true]).map (fun r => (r.1.gets "s1", r.1.gets "s", r.2)) =
    some (0, 2, ["VGET(s1)", "VGET(s1)"]) := by decide +kernel

/-- An instruction with two results, as a call. -/
def twoU : UInstr := ⟨"f_0", [], ["x", "y"], false, false, "f"⟩

/-- **C101, refuted in part.** The results of an instruction are put on the stack one after the other, so that the last one is on top; the validator has the first
one on top. The state has reached the final stack, and the validator has not. -/
theorem results_reversed : (play (init [] ["y", "x"] (fun _ => 1)) [.uf twoU 1]).map (fun r => (r.1.stack, r.1.notSolved, r.2)) =
      some (["y", "x"], [], ["f_0"]) ∧ execIds [twoU] ["f_0"] [] = some ["x", "y"] := by decide +kernel

end Grey.Greedy.Alternative
