/-
Property theorems about the block validator: C01, C02, C03.
-/
import Verif.SymExec.Lemmas
namespace Grey.SymExec

/-! ### C01 -/

/-- **C01.** If the validator accepts `ids`, then on any stack whose top holds the source layout
(values `val`, anything deeper), for any interpretation `f` of the operations that honours the
`commutative` flags and any values `val` of the variables that satisfy all the instructions of the
specification, the machine runs the whole schedule without underflow and stops with the target layout
on top; the part `rest` below the source layout is untouched, and without junk nothing is left in
between.  The machine being deterministic (`Run.det`) this is the only outcome.

Side conditions the validator does not check: instruction ids are unique; no `SWAP0` (not an EVM
instruction, see `accepts_swap0`); a `VGET(v)` finds `v` in its slot. -/
theorem accepted_computes_target {V : Type} (spec : Spec) (ids : List String) (junk : Bool)
    (f : UInstr → List V → List V)
    (hf : ∀ u ∈ spec.userInstrs, ∀ a b, u.commutative = true → f u [a, b] = f u [b, a])
    (val : Var → V)
    (hval : ∀ u ∈ spec.userInstrs, f u (u.inpt.map val) = u.outpt.map val)
    (huniq : (spec.userInstrs.map (·.id)).Nodup)
    (hacc : check spec ids junk = true)
    (hsw : ∀ s ∈ ids, classify s ≠ some (.swap 0))
    (slot : Var → V) (hslots : SlotsReady val slot ids) (rest : List V) :
    ∃ slot' extra,
      Run spec.userInstrs (fun u a (w : Unit) => (f u a, w)) ids
        ⟨spec.src.map val ++ rest, slot, ()⟩ ⟨spec.tgt.map val ++ extra ++ rest, slot', ()⟩ ∧
      (junk = false → extra = []) := by
  unfold check at hacc
  split at hacc
  · simp at hacc
  · rename_i cstack hex
    simp only [Bool.and_eq_true, decide_eq_true_eq] at hacc
    obtain ⟨⟨hcmp, _⟩, _⟩ := hacc
    obtain ⟨slot', hrun⟩ := run_sim (sem := fun u a (w : Unit) => (f u a, w))
      (fun u hu a b w hc => by simp [hf u hu a b hc]) huniq (good_of_pure hval hex) hex hsw slot hslots rest
    cases junk with
    | false =>
      simp only [Bool.false_eq_true, if_false] at hcmp
      subst hcmp
      exact ⟨slot', [], by simpa using hrun, by simp⟩
    | true =>
      simp only [if_true] at hcmp
      refine ⟨slot', (cstack.drop spec.tgt.length).map val, ?_, by simp⟩
      have : cstack.map val = spec.tgt.map val ++ (cstack.drop spec.tgt.length).map val := by
        conv => lhs; rw [← List.take_append_drop spec.tgt.length cstack]
        rw [List.map_append, hcmp]
      rw [← this]
      exact hrun

/-- The result of a run is unique. -/
theorem run_deterministic {V σ : Type} (tab : List UInstr) (sem : Sem V σ)
    (huniq : (tab.map (·.id)).Nodup) (ids : List String) (M M1 M2 : Machine V σ)
    (h1 : Run tab sem ids M M1) (h2 : Run tab sem ids M M2) : M1 = M2 := Run.det huniq h1 h2

/-- A small block: `mstore(0x40, x + y)` from the stack `[x, y]`, leaving `x` on the stack. -/
def demo : Spec where
  userInstrs := [
    ⟨"ADD_0", ["x", "y"], ["z"], true, false, "ADD"⟩,
    ⟨"PUSH_0", [], ["s0"], false, false, "PUSH"⟩,
    ⟨"MSTORE_0", ["s0", "z"], [], false, true, "MSTORE"⟩]
  src := ["x", "y"]
  tgt := ["x"]
  deps := []

def demoIds : List String := ["SWAP1", "DUP2", "ADD_0", "PUSH_0", "MSTORE_0"]

/-- The hypotheses of `accepted_computes_target` are met by a concrete block, with addition and a constant
as interpretation. -/
example : ∃ slot' extra,
    Run demo.userInstrs
      (fun u a (w : Unit) => ((if u.id = "ADD_0" then [a.sum] else if u.id = "PUSH_0" then [64] else []), w))
      demoIds
      ⟨[3, 4] ++ [9], fun _ => 0, ()⟩ ⟨[3] ++ extra ++ [9], slot', ()⟩ ∧ (false = false → extra = []) := by
  have := accepted_computes_target (V := Nat) demo demoIds false
    (fun u a => if u.id = "ADD_0" then [a.sum] else if u.id = "PUSH_0" then [64] else [])
    (by intro u _ a b _; simp [Nat.add_comm])
    (fun v => if v = "x" then 3 else if v = "y" then 4 else if v = "z" then 7 else 64)
    (by decide) (by decide) (by decide) (by decide) (fun _ => 0)
    (by intro pre s post v e hc
        exfalso
        have hs : s ∈ demoIds := by rw [e]; simp
        have : ∀ s ∈ demoIds, (match classify s with | some (.get _) => false | _ => true) = true := by decide
        have := this s hs
        rw [hc] at this
        simp at this)
    [9]
  exact this

/-- The validator accepts `SWAP0` and `SWAP17`, which are not EVM instructions: acceptance alone does not
imply that the sequence can be encoded. -/
theorem accepts_swap0 : check ⟨[], ["a"], ["a"], []⟩ ["SWAP0"] false = true := by decide

theorem accepts_swap17 :
    check ⟨[], ["a","b","c","d","e","f","g","h","i","j","k","l","m","n","o","p","q","r"],
      ["r","b","c","d","e","f","g","h","i","j","k","l","m","n","o","p","q","a"], []⟩ ["SWAP17"] false = true := by
  decide

/-! ### C02 -/

/-- **C02.** In an accepted schedule both ends of every declared dependence occur and every occurrence of the
first precedes every occurrence of the second. -/
theorem accepted_respects_deps (spec : Spec) (ids : List String) (junk : Bool)
    (hacc : check spec ids junk = true) (a b : String) (hd : (a, b) ∈ spec.deps) :
    a ∈ ids ∧ b ∈ ids ∧ ∀ i j : Nat, ids[i]? = some a → ids[j]? = some b → i < j := by
  unfold check at hacc
  split at hacc
  · simp at hacc
  · simp only [Bool.and_eq_true, beq_iff_eq] at hacc
    exact (checkDeps_iff ids spec.deps).1 hacc.1.2 (a, b) hd

/-- **C02 (converse).** A schedule with one violated dependence (an absent end, or a second instruction at or
before a first one) is rejected. -/
theorem violation_rejected (spec : Spec) (ids : List String) (junk : Bool) (a b : String)
    (hd : (a, b) ∈ spec.deps)
    (hv : a ∉ ids ∨ b ∉ ids ∨ ∃ i j : Nat, ids[i]? = some a ∧ ids[j]? = some b ∧ j ≤ i) :
    check spec ids junk = false := by
  cases hc : check spec ids junk with
  | false => rfl
  | true =>
    obtain ⟨h1, h2, h3⟩ := accepted_respects_deps spec ids junk hc a b hd
    rcases hv with h | h | ⟨i, j, hi, hj, hle⟩
    · exact absurd h1 h
    · exact absurd h2 h
    · exact absurd (h3 i j hi hj) (by omega)

/-- The dependence checker answers `True` exactly for the schedules that respect all the dependences. -/
theorem check_deps_exact (ids : List String) (deps : List (String × String)) :
    checkDeps ids deps = some true ↔
      ∀ d ∈ deps, d.1 ∈ ids ∧ d.2 ∈ ids ∧
        ∀ i j : Nat, ids[i]? = some d.1 → ids[j]? = some d.2 → i < j := checkDeps_iff ids deps

example : check ⟨[⟨"MSTORE_0", [], [], false, true, "MSTORE"⟩, ⟨"MSTORE_1", [], [], false, true, "MSTORE"⟩],
    [], [], [("MSTORE_0", "MSTORE_1")]⟩ ["MSTORE_0", "MSTORE_1"] false = true := by decide
example : check ⟨[⟨"MSTORE_0", [], [], false, true, "MSTORE"⟩, ⟨"MSTORE_1", [], [], false, true, "MSTORE"⟩],
    [], [], [("MSTORE_0", "MSTORE_1")]⟩ ["MSTORE_1", "MSTORE_0"] false = false := by decide

/-! ### C03 -/

/-- **C03.** In an accepted schedule each effect (flag `storage`, `GAS` not a part of its name) occurs exactly
once. -/
theorem accepted_effects_once (spec : Spec) (ids : List String) (junk : Bool)
    (hacc : check spec ids junk = true) (u : UInstr) (hu : u ∈ spec.userInstrs) (hs : u.storage = true)
    (hg : ¬ "GAS".toList <:+: u.disasm.toList) :
    ids.count u.id = 1 := by
  unfold check at hacc
  split at hacc
  · simp at hacc
  · simp only [Bool.and_eq_true, beq_iff_eq] at hacc
    have := List.all_eq_true.1 hacc.2 u hu
    have hg' : infixOf "GAS".toList u.disasm.toList = false := by
      cases h : infixOf "GAS".toList u.disasm.toList with
      | false => rfl
      | true => exact absurd (infixOf_iff.1 h) hg
    rw [hs, hg'] at this
    simpa using this

/-- **C03 (converse).** Running an effect twice or not at all is rejected. -/
theorem effect_not_once_rejected (spec : Spec) (ids : List String) (junk : Bool)
    (u : UInstr) (hu : u ∈ spec.userInstrs) (hs : u.storage = true)
    (hg : ¬ "GAS".toList <:+: u.disasm.toList) (hc : ids.count u.id ≠ 1) :
    check spec ids junk = false := by
  cases h : check spec ids junk with
  | false => rfl
  | true => exact absurd (accepted_effects_once spec ids junk h u hu hs hg) hc

example : check demo demoIds false = true := by decide

/-! ### Uniqueness helpers -/

/-- `ensure_ids_are_unique` decides uniqueness of the ids. -/
theorem ensure_ids_unique_exact (tab : List UInstr) :
    idsUnique tab = true ↔ (tab.map (·.id)).Nodup := by
  simp [idsUnique, idsUniqueFrom_iff]

/-- `ensure_stack_vars_are_unique` decides that no output variable is produced twice. -/
theorem ensure_stack_vars_unique_exact (tab : List UInstr) :
    varsUnique tab = true ↔ (tab.flatMap (·.outpt)).Nodup := by
  simp [varsUnique, varsUniqueFrom_iff]

example : idsUnique demo.userInstrs = true ∧ varsUnique demo.userInstrs = true := by decide

end Grey.SymExec
