/-
The option for the depth of the stack: C97.
-/
import Verif.Stored.Model
namespace Grey.Stored
open List Grey.Repair Grey.SymExec

/-- `parse_args` (src/execution/args_parser.py:47-54), after the options have been read: `depth` is the number given with `-d`, if any. The result is the new value of
`constants.MAX_STACK_DEPTH`; `none`: the ValueError. -/
def acceptedDepth (depth : Option Int) : Option Nat := if depth.getD 16 ≤ 0 then none else some (depth.getD 16).toNat

/-- The ids of a block after the reparation has inserted the stores of the variables `vs` (src/greedy/greedy_info.py:98-113, src/reparation/tree_scan.py:130-154), with the
depth of the option; `cell` is the address of a variable. `none`: an exception. -/
def repairedTexts (depth : Nat) (tab : List UInstr) (ids src vs : List String) (cell : String → Option Nat) : Option (List String) :=
  (reachability depth tab ids src none).bind fun R => (insertAll vs (ids.map .id, R)).bind fun g => (emitIds cell g.1).map fun ops => (ops.map SOp.texts).flatten

/-! ### Specification -/

/-- The names of the EVM instructions that duplicate a stack element. -/
def dupNames : List String :=
  ["DUP1", "DUP2", "DUP3", "DUP4", "DUP5", "DUP6", "DUP7", "DUP8", "DUP9", "DUP10", "DUP11", "DUP12", "DUP13", "DUP14", "DUP15", "DUP16"]

/-- What the reparation writes: an id that was there, a push of an address, a load, a store, or a duplication of one of the `depth` first elements. -/
inductive Written1 (depth : Nat) (ids : List String) : String → Prop where
  | kept (s : String) : s ∈ ids → Written1 depth ids s
  | push (a : Nat) : Written1 depth ids ("PUSH " ++ hexOf a)
  | load : Written1 depth ids "MLOAD"
  | store : Written1 depth ids "MSTORE"
  | dup (n : Nat) : 1 ≤ n → n ≤ depth → Written1 depth ids ("DUP" ++ toString n)

/-! ### Proofs -/

theorem accepted_iff (depth : Option Int) (d : Nat) : acceptedDepth depth = some d ↔ 0 < d ∧ depth.getD 16 = d := by
  unfold acceptedDepth
  constructor
  · intro h
    split at h
    · cases h
    · simp only [Option.some.injEq] at h
      omega
  · rintro ⟨h1, h2⟩
    rw [if_neg (by omega), h2]
    simp

theorem emit_within {depth : Nat} {ids : List String} (cell : String → Option Nat) : ∀ (pids : List PId) (ops : List SOp), emitIds cell pids = some ops →
    (∀ s, PId.id s ∈ pids → s ∈ ids) → (∀ v d, PId.dupSet v d ∈ pids → d < depth) → ∀ o ∈ ops, ∀ s ∈ o.texts, Written1 depth ids s := by
  intro pids
  induction pids with
  | nil => intro ops h _ _ o ho; cases h; cases ho
  | cons p pids ih =>
    intro ops h hk hd
    have ih' : ∀ ops', emitIds cell pids = some ops' → ∀ o ∈ ops', ∀ s ∈ o.texts, Written1 depth ids s :=
      fun ops' h' => ih ops' h' (fun s hs => hk s (mem_cons_of_mem _ hs)) fun v d hs => hd v d (mem_cons_of_mem _ hs)
    cases p with
    | id t =>
      rw [emitIds] at h
      split at h
      · obtain ⟨a, -, h⟩ := Option.bind_eq_some_iff.1 h
        obtain ⟨r, hr, rfl⟩ := Option.map_eq_some_iff.1 h
        intro o ho s hs
        rcases mem_cons.1 ho with rfl | ho
        · simp only [SOp.texts, mem_cons, not_mem_nil, or_false] at hs
          rcases hs with rfl | rfl
          · exact .push a
          · exact .load
        · exact ih' r hr o ho s hs
      · split at h
        · obtain ⟨a, -, h⟩ := Option.bind_eq_some_iff.1 h
          obtain ⟨r, hr, rfl⟩ := Option.map_eq_some_iff.1 h
          intro o ho s hs
          rcases mem_cons.1 ho with rfl | ho
          · simp only [SOp.texts, mem_cons, not_mem_nil, or_false] at hs
            rcases hs with rfl | rfl
            · exact .push a
            · exact .store
          · exact ih' r hr o ho s hs
        · obtain ⟨r, hr, rfl⟩ := Option.map_eq_some_iff.1 h
          intro o ho s hs
          rcases mem_cons.1 ho with rfl | ho
          · simp only [SOp.texts, mem_cons, not_mem_nil, or_false] at hs
            subst hs
            exact .kept _ (hk _ mem_cons_self)
          · exact ih' r hr o ho s hs
    | dupSet v d =>
      rw [emitIds] at h
      obtain ⟨a, -, h⟩ := Option.bind_eq_some_iff.1 h
      obtain ⟨r, hr, rfl⟩ := Option.map_eq_some_iff.1 h
      intro o ho s hs
      rcases mem_cons.1 ho with rfl | ho
      · simp only [SOp.texts, mem_cons, not_mem_nil, or_false] at hs
        subst hs
        exact .dup _ (by omega) (hd v d mem_cons_self)
      · rcases mem_cons.1 ho with rfl | ho
        · simp only [SOp.texts, mem_cons, not_mem_nil, or_false] at hs
          rcases hs with rfl | rfl
          · exact .push a
          · exact .store
        · exact ih' r hr o ho s hs

theorem id_mem_originals {s : String} : ∀ {l : List PId}, PId.id s ∈ l → s ∈ originals l
  | .id t :: l, h => by
    rw [originals]
    rcases mem_cons.1 h with h | h
    · cases h; exact mem_cons_self
    · exact mem_cons_of_mem _ (id_mem_originals h)
  | .dupSet _ _ :: l, h => by
    rw [originals]
    rcases mem_cons.1 h with h | h
    · cases h
    · exact id_mem_originals h

/-- **C97.** With every depth that the command line accepts, what the reparation writes for a block without call are the ids that were there, pushes, loads, stores, and
duplications of elements within that depth. -/
theorem written_within_depth {depth : Option Int} {d : Nat} (_ : acceptedDepth depth = some d) {tab : List UInstr} {ids src vs : List String} {cell : String → Option Nat}
    {out : List String} (h : repairedTexts d tab ids src vs cell = some out) : ∀ s ∈ out, Written1 d ids s := by
  unfold repairedTexts at h
  obtain ⟨R, hR, h⟩ := Option.bind_eq_some_iff.1 h
  obtain ⟨g, hg, h⟩ := Option.bind_eq_some_iff.1 h
  obtain ⟨ops, ho, rfl⟩ := Option.map_eq_some_iff.1 h
  have hvs : ∀ v ∈ vs, (R v).isSome := by
    have : ∀ (vs : List String) (g g' : List PId × Reach), insertAll vs g = some g' → ∀ v ∈ vs, (g.2 v).isSome := by
      intro vs
      induction vs with
      | nil => intro g g' _ v hv; cases hv
      | cons u vs ih =>
        intro g g' h v hv
        rw [insertAll] at h
        obtain ⟨g1, h1, h2⟩ := Option.bind_eq_some_iff.1 h
        unfold insertDupVset at h1
        obtain ⟨e, he, rfl⟩ := Option.map_eq_some_iff.1 h1
        rcases mem_cons.1 hv with rfl | hv
        · rw [he]; rfl
        · simpa using ih _ _ h2 v hv
    exact this vs _ _ hg
  obtain ⟨g', fin, k1, k2, -, -, -, k3, -⟩ := insertions_consistent_partial d tab ids src R hR vs hvs
  rw [hg] at k1
  cases k1
  intro s hs
  obtain ⟨l, hl, hs⟩ := mem_flatten.1 hs
  obtain ⟨o, ho', rfl⟩ := mem_map.1 hl
  refine emit_within cell g.1 ops ho (fun t ht => k2 ▸ id_mem_originals ht) ?_ o ho' s hs
  intro v n hm
  obtain ⟨p, q, e⟩ := append_of_mem hm
  obtain ⟨⟨st, -, -, h⟩, -⟩ := k3 p v n q e
  exact h

/-- **C97, instructions (partial: the command line accepts greater depths, see `depth_option_too_great`).** With a depth of at most 16, the duplications that the reparation adds
are EVM instructions. -/
theorem duplications_exist_partial {depth : Option Int} {d : Nat} (ha : acceptedDepth depth = some d) (h16 : d ≤ 16) {tab : List UInstr} {ids src vs : List String}
    {cell : String → Option Nat} {out : List String} (h : repairedTexts d tab ids src vs cell = some out) :
    ∀ s ∈ out, s ∈ ids ∨ (∃ a, s = "PUSH " ++ hexOf a) ∨ s = "MLOAD" ∨ s = "MSTORE" ∨ s ∈ dupNames := by
  intro s hs
  cases written_within_depth ha h s hs with
  | kept _ hm => exact .inl hm
  | push a => exact .inr (.inl ⟨a, rfl⟩)
  | load => exact .inr (.inr (.inl rfl))
  | store => exact .inr (.inr (.inr (.inl rfl)))
  | dup n h1 h2 =>
    refine .inr (.inr (.inr (.inr ?_)))
    have : ∀ m ∈ List.range 17, 1 ≤ m → "DUP" ++ toString m ∈ dupNames := by decide +kernel
    exact this n (mem_range.2 (by omega)) h1

def seventeen : List String := ["a", "b", "c", "d", "e", "f", "g", "h", "i", "j", "k", "l", "m", "n", "o", "p", "q"]

/-- The default, and a depth for testing, meet the hypotheses; a depth that is not positive is refused. -/
example : acceptedDepth none = some 16 ∧ acceptedDepth (some 3) = some 3 ∧ acceptedDepth (some 0) = none ∧ acceptedDepth (some (-2)) = none ∧
    repairedTexts 16 [] ["SWAP1"] seventeen ["p", "a"] (fun v => if v = "p" then some 128 else some 160) =
      some ["SWAP1", "DUP16", "PUSH 80", "MSTORE", "DUP2", "PUSH a0", "MSTORE"] ∧
    repairedTexts 16 [] ["SWAP1"] seventeen ["q"] (fun _ => some 128) = none := by decide +kernel

/-- **C97 fails for greater depths.** The command line accepts depth 17; then the reparation writes `DUP17`, which is not an instruction, and the validator accepts it in a schedule. -/
theorem depth_option_too_great : acceptedDepth (some 17) = some 17 ∧
    repairedTexts 17 [] [] seventeen ["q"] (fun _ => some 128) = some ["DUP17", "PUSH 80", "MSTORE"] ∧ "DUP17" ∉ dupNames ∧
    execIds [] ["DUP17"] seventeen = some ("q" :: seventeen) := by decide +kernel

end Grey.Stored
