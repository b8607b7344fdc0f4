/-
Non-vacuity of C41: `mstore(a, x); mstore(b, x); r := mload(a)` with `a ≠ b`, the two stores swapped by the
schedule; only the dependence store(a) → load(a) is declared.
-/
import Verif.SymExec.Refine
open List
namespace Grey.SymExec
open Grey.Trace (Chain)

def st0 : UInstr := ⟨"MSTORE_0", ["a", "x"], [], false, true, "MSTORE"⟩
def st1 : UInstr := ⟨"MSTORE_1", ["b", "x"], [], false, true, "MSTORE"⟩
def ld0 : UInstr := ⟨"MLOAD_0", ["a"], ["r"], false, false, "MLOAD"⟩
def memDemo : Spec := ⟨[st0, st1, ld0], ["a", "x", "b"], ["r"], [("MSTORE_0", "MLOAD_0")]⟩
/-- Store to `b` first, then store to `a`, then load. -/
def memIds : List String :=
  ["DUP2", "DUP4", "MSTORE_1", "DUP2", "DUP2", "MSTORE_0", "MLOAD_0", "SWAP2", "POP", "POP"]

def memSem : Sem Nat (Nat → Nat) := fun u args w =>
  if u.disasm = "MSTORE" then ([], fun k => if k = args.getD 0 0 then args.getD 1 0 else w k)
  else (u.outpt.map fun _ => w (args.getD 0 0), w)

def memEnv : Var → Nat := fun v => if v = "a" then 0 else if v = "b" then 32 else 7

example (w0 : Nat → Nat) : ∃ slot' extra,
    Run memDemo.userInstrs memSem memIds ⟨[0, 7, 32] ++ [5], fun _ => 0, w0⟩
      ⟨[7] ++ extra ++ [5], slot', fun k => if k = 32 then 7 else if k = 0 then 7 else w0 k⟩ ∧
      (false = false → extra = []) := by
  refine accepted_refines_block (V := Nat) memDemo memIds false memSem ?_ ?_ ?_ ?_ ?_ memEnv w0 ?_ (by decide)
    (by decide) (fun _ => 0) ?_ [5]
  · intro u hu a b w hc
    simp only [memDemo, List.mem_cons, List.not_mem_nil, or_false] at hu
    rcases hu with rfl | rfl | rfl <;> simp [st0, st1, ld0] at hc
  · refine ⟨by decide, by decide, by decide, ?_⟩
    intro pre u post e v hv u' hu' hv'
    have hu : u ∈ memDemo.userInstrs := by rw [e]; simp
    have hu'' : u' ∈ memDemo.userInstrs := by
      rw [e]; rcases List.mem_append.1 hu' with h | h
      · simp [h]
      · simp [List.mem_singleton.1 h]
    have key : ∀ u ∈ memDemo.userInstrs, ∀ v ∈ u.outpt, ∀ u' ∈ memDemo.userInstrs, v ∉ u'.inpt := by decide
    exact key u hu v hv u' hu'' hv'
  · decide
  · intro u hu args w
    simp only [memDemo, List.mem_cons, List.not_mem_nil, or_false] at hu
    rcases hu with rfl | rfl | rfl <;> simp [st0, st1, ld0, memSem]
  · intro u hu hne args w
    simp only [memDemo, List.mem_cons, List.not_mem_nil, or_false] at hu
    rcases hu with rfl | rfl | rfl
    · exact absurd ⟨rfl, by rw [← infixOf_iff]; decide⟩ hne
    · exact absurd ⟨rfl, by rw [← infixOf_iff]; decide⟩ hne
    · simp [ld0, memSem]
  · intro a b hs _ hch
    have hab : (a = st0 ∧ b = st1) ∨ (a = st0 ∧ b = ld0) ∨ (a = st1 ∧ b = ld0) := by
      simp only [memDemo] at hs
      simp [List.sublist_cons_iff] at hs
      aesop
    have hv : ∀ v, (ssaRun memSem memDemo.userInstrs memEnv w0).1 v = if v = "r" then 7 else memEnv v := by
      intro v
      simp [ssaRun, memDemo, memSem, st0, st1, ld0, assign, memEnv]
    rcases hab with ⟨rfl, rfl⟩ | ⟨rfl, rfl⟩ | ⟨rfl, rfl⟩
    · refine ⟨fun w => ?_, fun w => ?_, fun w => ?_⟩
      · funext k
        simp [memSem, st0, st1, hv, memEnv]
        split <;> split <;> simp_all
      · simp [memSem, st0, st1]
      · simp [memSem, st0, st1]
    · exact absurd (.single (by simp [st0, ld0, memDemo])) hch
    · refine ⟨fun w => ?_, fun w => ?_, fun w => ?_⟩ <;> simp [memSem, st1, ld0, hv, memEnv]
  · intro pre s post v e hc
    exfalso
    have hs : s ∈ memIds := by rw [e]; simp
    have : ∀ s ∈ memIds, (match classify s with | some (.get _) => false | _ => true) = true := by decide
    have := this s hs
    rw [hc] at this
    simp at this

end Grey.SymExec
