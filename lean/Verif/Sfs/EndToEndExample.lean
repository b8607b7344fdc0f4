/-
C51: a fragment of the EVM that meets the hypotheses, and the programs for which the dependences are not enough.
-/
import Verif.Sfs.EndToEnd
open List
namespace Grey.Sfs
open Grey.SymExec
open Grey.Deps (Reads Writes ReadsKey WritesKey Feeds InRange)

/-! ### Programs whose order is lost -/

/-- Build the specification of a block and validate a schedule for it: the dependences and the verdict. -/
def tryOut (instrs : List Ins) (initial final : List String) (ids : List String) :
    Option (List (String × String) × Bool) :=
  (buildSpec instrs none [] initial final).map fun p =>
    (p.2, check ⟨p.1.entries.map (·.instr), p.1.src, p.1.tgt, p.2⟩ ids false)

/-- **C51, refuted.** Two logs are not ordered: the schedule that emits the second event first is accepted. -/
theorem logs_reordered :
    tryOut [⟨"log0", ["p", "n"], [], none⟩, ⟨"log0", ["q", "m"], [], none⟩] ["p", "n", "q", "m"] []
      ["SWAP2", "SWAP1", "SWAP3", "SWAP1", "LOG0_1", "LOG0_0"] = some ([], true) := by decide +kernel

/-- **C51, refuted.** The size of the return data may be read before the call that returns it. -/
theorem return_size_reordered :
    tryOut [⟨"call", ["g", "a", "v", "i", "n", "o", "m"], ["ok"], none⟩, ⟨"returndatasize", [], ["size"], none⟩]
      ["g", "a", "v", "i", "n", "o", "m"] ["ok", "size"]
      ["RETURNDATASIZE_0", "SWAP7", "SWAP6", "SWAP5", "SWAP4", "SWAP3", "SWAP2", "SWAP1", "CALL_0"] = some ([], true) := by decide +kernel

/-- **C51, refuted.** A store at `x` and a load at `x + 0`, exchanged. -/
theorem alias_reordered :
    tryOut [⟨"add", ["x", "0x00"], ["t"], none⟩, ⟨"sstore", ["x", "v"], [], none⟩, ⟨"sload", ["t"], ["r"], none⟩]
      ["x", "v"] ["r"] ["PUSH0_0", "DUP2", "ADD_0", "SLOAD_0", "SWAP2", "SWAP1", "SSTORE_0"] = some ([], true) := by decide +kernel

/-! ### A fragment of the EVM -/

/-- Byte `j` (from the left) of a word. -/
def byteOf (v j : Nat) : Nat := v / 256 ^ (31 - j) % 256

/-- `mstore`. -/
def memStore (w : Loc → Nat) (p v : Nat) : Loc → Nat
  | .mem k => if p ≤ k ∧ k < p + 32 then byteOf v (k - p) else w (.mem k)
  | l => w l

/-- `mload`. -/
def memLoad (w : Loc → Nat) (p : Nat) : Nat := (List.range 32).foldl (fun n j => n * 256 + w (.mem (p + j))) 0

/-- `sstore`. -/
def stoStore (w : Loc → Nat) (p v : Nat) : Loc → Nat
  | .sto k => if k = p then v else w (.sto k)
  | l => w l

/-- Words of 256 bits; memory of bytes, big-endian. -/
def evm : Interp Nat (Loc → Nat) where
  num := id
  op := fun name _ args w =>
    match args with
    | [x] => if name = "MLOAD" then ([memLoad w x], w) else if name = "SLOAD" then ([w (.sto x)], w) else ([], w)
    | [x, y] =>
      if name = "ADD" then ([(x + y) % 2 ^ 256], w)
      else if name = "MSTORE" then ([], memStore w x y)
      else if name = "SSTORE" then ([], stoStore w x y) else ([], w)
    | _ => ([], w)

/-- A block that stores to memory and to storage, loads both again and adds. -/
def evmIns : List Ins :=
  [⟨"mstore", ["0x40", "a"], [], none⟩, ⟨"sstore", ["0x05", "b"], [], none⟩, ⟨"mload", ["0x40"], ["x"], none⟩,
   ⟨"sload", ["0x05"], ["y"], none⟩, ⟨"add", ["x", "y"], ["z"], none⟩]

theorem evmBlockOk : BlockOk evmIns ["a", "b"] where
  known := by unfold evmIns; decide +kernel
  prefixOnly := by unfold evmIns; decide +kernel
  literal := by
    intro i hi h
    have : ∀ i ∈ evmIns, i.op ≠ "LiteralAssignment" := by unfold evmIns; decide +kernel
    exact absurd h (this i hi)
  push := by
    intro i hi h
    have : ∀ i ∈ evmIns, i.op ≠ "push" := by unfold evmIns; decide +kernel
    exact absurd h (this i hi)
  pushes := by
    intro i hi h
    have : ∀ i ∈ evmIns, ¬ "push".toList <+: i.op.toList := by unfold evmIns; decide +kernel
    exact absurd h (this i hi)
  noPush := by unfold evmIns; decide +kernel
  tagOp := by unfold evmIns; decide +kernel
  sameOp := by unfold evmIns; decide +kernel
  outs := by unfold evmIns; decide +kernel
  defBeforeUse := by
    intro pre i post h v hv j hj
    have hall : ∀ k, k < 5 → ∀ v ∈ ((evmIns[k]?).map (·.outArgs)).getD [], ∀ j ∈ evmIns.take (k + 1), v ∉ j.inArgs := by
      unfold evmIns; decide +kernel
    have hlen : pre.length < 5 := by
      have := congrArg List.length h
      simp [evmIns] at this; omega
    refine hall pre.length hlen v ?_ j ?_
    · rw [h]; simpa using hv
    · rw [h, List.take_append, List.take_of_length_le (by omega)]
      simpa using hj
  proper := by
    intro i hi v hv
    have : ∀ i ∈ evmIns, ∀ v ∈ i.outArgs, v.toList.head? ≠ some 's' ∧ isConst v = false ∧ v ≠ "bottom" := by
      unfold evmIns; decide +kernel
    obtain ⟨h1, h2, h3⟩ := this i hi v hv
    exact ⟨not_generated h1, not_literal h2, h3⟩
  inputs := by
    intro i hi v hv
    have : ∀ i ∈ evmIns, ∀ v ∈ i.inArgs, v.toList.head? ≠ some 's' ∧ v ≠ "bottom" := by
      unfold evmIns; decide +kernel
    obtain ⟨h1, h2⟩ := this i hi v hv
    exact ⟨not_generated h1, h2⟩
  source := by
    intro v hv
    have : ∀ v ∈ ["a", "b"], v.toList.head? ≠ some 's' := by decide
    exact not_generated (this v hv)
  sourceFresh := by unfold evmIns; decide +kernel

theorem evmUp : "mstore".map Char.toUpper = "MSTORE" ∧ "mload".map Char.toUpper = "MLOAD" ∧
    "sstore".map Char.toUpper = "SSTORE" ∧ "sload".map Char.toUpper = "SLOAD" ∧ "add".map Char.toUpper = "ADD" := by
  decide +kernel

theorem evmInterpOk : InterpOk evm evmIns where
  arity := by
    intro i hi env w
    obtain ⟨u1, u2, u3, u4, u5⟩ := evmUp
    simp only [evmIns, List.mem_cons, List.not_mem_nil, or_false] at hi
    rcases hi with rfl | rfl | rfl | rfl | rfl <;> simp [Interp.ins, evm, Ins.name, u1, u2, u3, u4, u5]
  quiet := by
    intro i hi hne lits args w
    obtain ⟨u1, u2, u3, u4, u5⟩ := evmUp
    simp only [evmIns, List.mem_cons, List.not_mem_nil, or_false] at hi
    rcases hi with rfl | rfl | rfl | rfl | rfl
    · exact absurd (by unfold Ins.Effect; decide +kernel) hne
    · exact absurd (by unfold Ins.Effect; decide +kernel) hne
    all_goals
      simp only [evm, Ins.name, u2, u4, u5]
      repeat' split
      all_goals simp_all
  const := by
    intro i hi h
    have : ∀ i ∈ evmIns, ¬ "push".toList <+: i.op.toList := by unfold evmIns; decide +kernel
    exact absurd h (this i hi)
  comm := by
    intro o ho lits a b w
    simp only [List.mem_cons, List.not_mem_nil, or_false] at ho
    rcases ho with rfl | rfl | rfl | rfl | rfl | rfl <;> simp [evm, Nat.add_comm]

theorem memLoad_congr {w w' : Loc → Nat} {p : Nat} (h : ∀ k, InRange p 32 k → w (.mem k) = w' (.mem k)) :
    memLoad w p = memLoad w' p := by
  unfold memLoad
  apply List.foldl_ext
  intro n j hj
  rw [h (p + j) ⟨by omega, by have := List.mem_range.1 hj; omega⟩]

theorem evm_mstore (p v : String) (env : String → Nat) (w : Loc → Nat) :
    evm.ins ⟨"mstore", [p, v], [], none⟩ env w = ([], memStore w (evm.read env p) (evm.read env v)) := by
  obtain ⟨u1, u2, u3, u4, u5⟩ := evmUp
  generalize hp : evm.read env p = x
  generalize hv : evm.read env v = y
  simp [Interp.ins, Ins.name, u1, hp, hv]
  simp [evm]

theorem evm_sstore (p v : String) (env : String → Nat) (w : Loc → Nat) :
    evm.ins ⟨"sstore", [p, v], [], none⟩ env w = ([], stoStore w (evm.read env p) (evm.read env v)) := by
  obtain ⟨u1, u2, u3, u4, u5⟩ := evmUp
  generalize hp : evm.read env p = x
  generalize hv : evm.read env v = y
  simp [Interp.ins, Ins.name, u3, hp, hv]
  simp [evm]

theorem evm_mload (p v : String) (env : String → Nat) (w : Loc → Nat) :
    evm.ins ⟨"mload", [p], [v], none⟩ env w = ([memLoad w (evm.read env p)], w) := by
  obtain ⟨u1, u2, u3, u4, u5⟩ := evmUp
  generalize hp : evm.read env p = x
  simp [Interp.ins, Ins.name, u2, hp]
  simp [evm]

theorem evm_sload (p v : String) (env : String → Nat) (w : Loc → Nat) :
    evm.ins ⟨"sload", [p], [v], none⟩ env w = ([w (.sto (evm.read env p))], w) := by
  obtain ⟨u1, u2, u3, u4, u5⟩ := evmUp
  generalize hp : evm.read env p = x
  simp [Interp.ins, Ins.name, u4, hp]
  simp [evm]

theorem evm_add (p q v : String) (env : String → Nat) (w : Loc → Nat) :
    evm.ins ⟨"add", [p, q], [v], none⟩ env w = ([(evm.read env p + evm.read env q) % 2 ^ 256], w) := by
  obtain ⟨u1, u2, u3, u4, u5⟩ := evmUp
  generalize hp : evm.read env p = x
  generalize hq : evm.read env q = y
  simp [Interp.ins, Ins.name, u5, hp, hq]
  simp [evm]

/-- The fragment is local. -/
theorem evmLocalOk : LocalOk evm evmIns where
  result := by
    intro i hi env w w' h
    simp only [evmIns, List.mem_cons, List.not_mem_nil, or_false] at hi
    rcases hi with rfl | rfl | rfl | rfl | rfl
    · simp only [evm_mstore]
    · simp only [evm_sstore]
    · simp only [evm_mload, List.cons.injEq, and_true]
      apply memLoad_congr
      intro k hk
      exact h (.mem k) (by simpa [MayRead, Reads] using hk)
    · simp only [evm_sload, List.cons.injEq, and_true]
      exact h (.sto _) (Or.inl ⟨rfl, rfl⟩)
    · simp only [evm_add]
  written := by
    intro i hi env w w' h l hl
    simp only [evmIns, List.mem_cons, List.not_mem_nil, or_false] at hi
    rcases hi with rfl | rfl | rfl | rfl | rfl
    · simp only [evm_mstore]; cases l <;> simp [memStore, hl]
    · simp only [evm_sstore]; cases l <;> simp [stoStore, hl]
    · simp only [evm_mload]; exact hl
    · simp only [evm_sload]; exact hl
    · simp only [evm_add]; exact hl
  untouched := by
    intro i hi env w l hl
    simp only [evmIns, List.mem_cons, List.not_mem_nil, or_false] at hi
    rcases hi with rfl | rfl | rfl | rfl | rfl
    · simp only [evm_mstore]
      cases l with
      | mem k =>
        have hk : ¬ InRange (evm.read env "0x40") 32 k := by simpa [MayWrite, Writes] using hl
        unfold InRange at hk
        simp only [memStore, if_neg hk]
      | _ => rfl
    · simp only [evm_sstore]
      cases l with
      | sto k =>
        have hk : ¬ evm.read env "0x05" = k := by simpa [MayWrite, WritesKey] using hl
        simp only [stoStore]
        rw [if_neg (fun e => hk e.symm)]
      | _ => rfl
    · simp only [evm_mload]
    · simp only [evm_sload]
    · simp only [evm_add]

def evmBuilt : Built where
  entries := [⟨⟨"PUSH_0", [], ["s0"], false, false, "PUSH"⟩, some (.num 64)⟩,
    ⟨⟨"MSTORE_0", ["s0", "a"], [], false, true, "MSTORE"⟩, none⟩,
    ⟨⟨"PUSH_1", [], ["s1"], false, false, "PUSH"⟩, some (.num 5)⟩,
    ⟨⟨"SSTORE_0", ["s1", "b"], [], false, true, "SSTORE"⟩, none⟩,
    ⟨⟨"MLOAD_0", ["s0"], ["x"], false, false, "MLOAD"⟩, none⟩,
    ⟨⟨"SLOAD_0", ["s1"], ["y"], false, false, "SLOAD"⟩, none⟩,
    ⟨⟨"ADD_0", ["x", "y"], ["z"], true, false, "ADD"⟩, none⟩]
  src := ["a", "b"]
  tgt := ["z"]
  positions := [(4, "ADD_0"), (3, "SLOAD_0"), (2, "MLOAD_0"), (1, "SSTORE_0"), (0, "MSTORE_0")]
  unused := []

/-- The computed dependences: load after store, in memory and in storage. -/
theorem evmBuilt_eq : buildSpec evmIns none [] ["a", "b"] ["z"] =
    some (evmBuilt, [("SSTORE_0", "SLOAD_0"), ("MSTORE_0", "MLOAD_0")]) := by decide +kernel

/-- The entry of an instruction, by its id. -/
def evmSem : Sem Nat (Loc → Nat) := fun u args w =>
  match evmBuilt.entries.find? (·.instr.id == u.id) with
  | some e => e.sem evm args w
  | none => ([], w)

/-- A schedule that exchanges the two stores, and loads from storage before it stores to memory. -/
def evmIds : List String :=
  ["SWAP1", "PUSH_1", "SSTORE_0", "PUSH_1", "SLOAD_0", "SWAP1", "PUSH_0", "MSTORE_0", "PUSH_0", "MLOAD_0", "ADD_0"]

/-- All hypotheses of C51 hold for this block and this schedule, whatever `a`, `b` and the initial state. -/
example (env0 : String → Nat) (w0 : Loc → Nat) (rest : List Nat) :
    ∃ slot' extra,
      Run (evmBuilt.entries.map (·.instr)) evmSem evmIds ⟨[env0 "a", env0 "b"] ++ rest, fun _ => 0, w0⟩
        ⟨[(blockRun evm evmIns env0 w0).1 "z"] ++ extra ++ rest, slot', (blockRun evm evmIns env0 w0).2⟩ ∧
      (false = false → extra = []) := by
  have hna : ¬ IsLiteral "a" := not_literal (by decide)
  have hnb : ¬ IsLiteral "b" := not_literal (by decide)
  have hnz : ¬ IsLiteral "z" := not_literal (by decide)
  have hrun := compiled_block_runs_partial evm (fun _ => rfl) evmIns none [] ["a", "b"] ["z"] evmBlockOk evmInterpOk
    evmLocalOk evmBuilt _ evmBuilt_eq
    (by
      intro v hv
      simp only [beforeSplit, List.mem_cons, List.not_mem_nil, or_false] at hv
      subst hv; exact not_generated (by decide))
    env0 w0 (by simp)
    { noExit := by unfold evmIns; decide +kernel
      env := by
        intro m n a b _ ha hb h
        exfalso
        have hw : ∀ i ∈ evmIns, i.op ∉ envWriters := by unfold evmIns; decide +kernel
        rcases h with h | h
        · exact hw a (List.mem_of_getElem? ha) h.1
        · exact hw b (List.mem_of_getElem? hb) h.2
      create := by unfold evmIns; decide +kernel
      keys := by
        intro ops hops a ha b hb hao hbo u v hu hv hf
        exfalso
        have hkey : ∀ ops ∈ [["sload", "sstore"], ["tload", "tstore"]], ∀ a ∈ evmIns, a.op ∈ ops → a.inArgs[0]? = some "0x05" := by
          unfold evmIns; decide +kernel
        rw [hkey ops hops b hb hbo, Option.some.injEq] at hv
        subst hv
        have hno : ∀ i ∈ evmIns, "0x05" ∉ i.outArgs := by unfold evmIns; decide +kernel
        cases hf with
        | direct h1 h2 _ =>
          obtain ⟨i, hi, e⟩ := List.mem_map.1 h1
          simp only [Prod.mk.injEq] at e
          exact hno i hi (by rw [e.2.2]; exact h2)
        | through h1 h2 _ _ =>
          obtain ⟨i, hi, e⟩ := List.mem_map.1 h1
          simp only [Prod.mk.injEq] at e
          exact hno i hi (by rw [e.2.2]; exact h2)
      used := by intro n i x _ _ _; simp [evmBuilt] }
    evmSem
    (by
      intro e he
      simp only [evmBuilt, List.mem_cons, List.not_mem_nil, or_false] at he
      rcases he with rfl | rfl | rfl | rfl | rfl | rfl | rfl <;> rfl)
    evmIds false (by decide +kernel) (by decide +kernel) (fun _ => 0)
    (by
      intro pre s post v e hc
      exfalso
      have : ∀ s ∈ evmIds, ∀ v, classify s ≠ some (.get v) := by
        intro s hs v
        have hcl : ∀ s ∈ evmIds, classify s = some (.instr s) ∨ classify s = some (.swap 1) := by decide +kernel
        rcases hcl s hs with h | h <;> rw [h] <;> simp
      exact this s (by rw [e]; simp) v hc)
    rest
  simpa [beforeSplit, Interp.read, hna, hnb, hnz] using hrun

end Grey.Sfs
