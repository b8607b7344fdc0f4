/-
Property theorems: C10 (size of constants) and C39 (opcode table).
-/
import Verif.Opcodes.Model
import Verif.Opcodes.Spec
import Verif.Common.Names
namespace Grey.Opcodes

/-! ### C10 -/

/-- The loop on a non-negative number stops, and its result is the least number of base-256 digits. -/
theorem encLoop_spec (n : Nat) : ∀ i, ∃ k, (∀ fuel, n ≤ fuel → encLoop fuel (n : Int) i = some (i + k)) ∧
    n < 256 ^ k ∧ ∀ m, n < 256 ^ m → k ≤ m := by
  induction n using Nat.strongRecOn with
  | ind n ih =>
    intro i
    rcases Nat.eq_zero_or_pos n with rfl | hpos
    · refine ⟨0, ?_, by simp, by simp⟩
      intro fuel _
      cases fuel <;> simp [encLoop]
    · have hlt : n / 256 < n := Nat.div_lt_self hpos (by decide)
      obtain ⟨k, h1, h2, h3⟩ := ih (n / 256) hlt (i + 1)
      refine ⟨k + 1, ?_, ?_, ?_⟩
      · intro fuel hf
        cases fuel with
        | zero => omega
        | succ f =>
          rw [encLoop, if_neg (by omega)]
          have := h1 f (by omega)
          rw [show ((n : Int) / 256) = ((n / 256 : Nat) : Int) by simp, this]
          congr 1
          omega
      · rw [Nat.pow_succ]; omega
      · intro m hm
        cases m with
        | zero => simp at hm; omega
        | succ m =>
          rw [Nat.pow_succ] at hm
          exact Nat.succ_le_succ (h3 m (by omega))

/-- **C10.** For every integer of the EVM (unsigned, or negative in two's complement) the byte size is computed; it is
the least `k ≥ 1` such that the word fits in `k` bytes, and it is at most 32. -/
theorem push_bytes_exact (v : Int) (lo : -(2 ^ 256) ≤ v) (hi : v < 2 ^ 256) :
    ∃ fuel k, getNumBytesInt fuel v = some k ∧ (∀ fuel' ≥ fuel, getNumBytesInt fuel' v = some k) ∧
      1 ≤ k ∧ k ≤ 32 ∧ v % 2 ^ 256 < 256 ^ k ∧ ∀ m : Nat, 1 ≤ m → v % 2 ^ 256 < 256 ^ m → k ≤ m := by
  have hw : (if v < 0 then 2 ^ 256 + v else v) = v % 2 ^ 256 := by
    split
    · rw [← Int.add_emod_left (2 ^ 256) v, Int.emod_eq_of_lt] <;> omega
    · rw [Int.emod_eq_of_lt] <;> omega
  have hnn : 0 ≤ v % 2 ^ 256 := Int.emod_nonneg _ (by decide)
  have hlt : v % 2 ^ 256 < 2 ^ 256 := Int.emod_lt_of_pos _ (by decide)
  obtain ⟨n, hn⟩ := Int.eq_ofNat_of_zero_le hnn
  obtain ⟨k, h1, h2, h3⟩ := encLoop_spec n 0
  have hc : ∀ m : Nat, (256 : Int) ^ m = ((256 ^ m : Nat) : Int) := fun m => by rw [Int.natCast_pow]; rfl
  have hk : ∀ fuel, n ≤ fuel → getNumBytesInt fuel v = some (max 1 k) := by
    intro fuel hf
    unfold getNumBytesInt numberEncodingSize
    rw [hw, hn, h1 fuel hf]
    simp
  refine ⟨n, max 1 k, hk n (Nat.le_refl _), fun f hf => hk f hf, by omega, ?_, ?_, ?_⟩
  · have : k ≤ 32 := h3 32 (by
      have : ((n : Nat) : Int) < ((256 ^ 32 : Nat) : Int) := by rw [← hn]; exact hlt
      omega)
    omega
  · rw [hn]
    have : n < 256 ^ (max 1 k) := Nat.lt_of_lt_of_le h2 (Nat.pow_le_pow_right (by decide) (by omega))
    rw [hc (max 1 k)]; exact Int.ofNat_lt.2 this
  · intro m hm hv
    rw [hn] at hv
    have := h3 m (by rw [hc m] at hv; exact Int.ofNat_lt.1 hv)
    omega

/-- **C10.** The size of a PUSH is one more than the number of bytes. -/
theorem push_size (fuel : Nat) (v : Int) (k : Nat) (h : getNumBytesInt fuel v = some k) :
    getInsSize fuel "PUSH" (some v) = some (1 + k) := by
  simp [getInsSize, h]

/-- **C10, outside the word range.** Below `-2^256` the loop never stops, whatever the number of iterations. -/
theorem push_bytes_diverges (v : Int) (h : v < -(2 ^ 256)) (fuel : Nat) : getNumBytesInt fuel v = none := by
  have hl : ∀ fuel (n : Int) i, n < 0 → encLoop fuel n i = none := by
    intro fuel
    induction fuel with
    | zero => intro n i hn; simp [encLoop]; omega
    | succ f ih =>
      intro n i hn
      rw [encLoop, if_neg (by omega)]
      exact ih _ _ (by omega)
  unfold getNumBytesInt numberEncodingSize
  rw [hl _ _ _ (by split <;> omega)]
  rfl

example : getNumBytesInt 40 255 = some 1 ∧ getNumBytesInt 40 256 = some 2 ∧ getNumBytesInt 40 0 = some 1 ∧
    getNumBytesInt 40 (-1) = some 32 := by decide +kernel

/-! ### C39 -/

/-- **C39.** Every EVM mnemonic is known, with the number of stack items the EVM removes and adds. -/
theorem evm_arities : ∀ e ∈ evm, ∃ b, getOpcode e.1 = some (b, e.2.2.1, e.2.2.2) := by
  have h : ∀ e ∈ evm, (getOpcode e.1).map (·.2) = some (e.2.2.1, e.2.2.2) := by decide +kernel
  intro e he
  have := h e he
  obtain ⟨x, hx, hx2⟩ := Option.map_eq_some_iff.1 this
  exact ⟨x.1, by rw [hx, ← hx2]⟩

/-- **C39.** `DUPi` and `SWAPi`, `1 ≤ i ≤ 16`, have the bytes and arities of the EVM. -/
theorem dup_swap_opcodes : ∀ i < 16, getOpcode ("DUP" ++ toString (i + 1)) = some (0x80 + i, i + 1, i + 2) ∧
    getOpcode ("SWAP" ++ toString (i + 1)) = some (0x90 + i, i + 2, i + 2) := by decide +kernel

/-- **C39 (partial).** Every EVM mnemonic other than RETURNDATASIZE has the byte of the EVM. -/
theorem evm_bytes_partial : ∀ e ∈ evm, e.1 ≠ "RETURNDATASIZE" → (getOpcode e.1).map (·.1) = some e.2.1 := by
  decide +kernel

/-- **C39, refuted.** RETURNDATASIZE gets the byte of EXTCODECOPY. -/
theorem returndatasize_byte_wrong :
    getOpcode "RETURNDATASIZE" = some (0x3c, 0, 1) ∧ getOpcode "EXTCODECOPY" = some (0x3c, 4, 0) := by
  decide +kernel

/-- **C39, refuted.** Every sized PUSH gets the byte of PUSH1. -/
theorem sized_push_byte_wrong : ∀ n < 32, getOpcode ("PUSH" ++ toString (n + 1)) = some (0x60, 0, 1) := by
  decide +kernel

/-- **C39 (partial).** Distinct EVM mnemonics other than RETURNDATASIZE have distinct bytes. -/
theorem evm_bytes_distinct_partial : ∀ a ∈ evm, ∀ b ∈ evm, a.1 ≠ "RETURNDATASIZE" → b.1 ≠ "RETURNDATASIZE" →
    (getOpcode a.1).map (·.1) = (getOpcode b.1).map (·.1) → a.1 = b.1 := by
  intro a ha b hb h1 h2 h
  rw [evm_bytes_partial a ha h1, evm_bytes_partial b hb h2, Option.some.injEq] at h
  have : ∀ a ∈ evm, ∀ b ∈ evm, a.2.1 = b.2.1 → a.1 = b.1 := by decide +kernel
  exact this a ha b hb h

/-- **C39 (partial).** The byte is rendered as two lower-case hexadecimal digits denoting it — except 0x0c to
0x0f, which get a single digit (no EVM instruction has those bytes). -/
theorem opcode_rendering : ∀ n < 256, hexVal (processOpcode n).toList = n ∧
    ((processOpcode n).toList.length = 2 ↔ ¬ (12 ≤ n ∧ n < 16)) := by
  have h : ∀ n < 256, hexVal (processOpcode n).toList = n ∧
      (decide ((processOpcode n).toList.length = 2) = !(decide (12 ≤ n) && decide (n < 16))) := by decide +kernel
  intro n hn
  obtain ⟨h1, h2⟩ := h n hn
  refine ⟨h1, ?_⟩
  by_cases hc : 12 ≤ n ∧ n < 16
  · simp [hc.1, hc.2] at h2; simp [hc, h2]
  · have : (!(decide (12 ≤ n) && decide (n < 16))) = true := by simp; omega
    rw [this, decide_eq_true_eq] at h2
    simp [h2, hc]

/-- **C39.** There is no opcode for DUP0 or SWAP0, nor for DUP or SWAP beyond 16. -/
theorem no_other_dup_swap (n : Nat) (h : n = 0 ∨ 16 < n) : getOpcode ("DUP" ++ toString n) = none ∧ getOpcode ("SWAP" ++ toString n) = none := by
  have key : ∀ pre ∈ ["DUP", "SWAP"], getOpcode (pre ++ toString n) = none := by
    intro pre hpre
    have hstart : pre.toList <+: (pre ++ toString n).toList := by rw [String.toList_append]; exact List.prefix_append _ _
    have hno : ∀ q ∈ ["DUP", "SWAP"], (∀ e ∈ opcodes, ¬ q.toList <+: e.1.toList) ∧
        ∀ o ∈ ["SELFDESTRUCT", "RETURNDATASIZE", "RETURNDATACOPY", "PUSH0"], ¬ q.toList <+: o.toList := by decide +kernel
    have hlook : opcodes.lookup (pre ++ toString n) = none := by
      rw [List.lookup_eq_none_iff]
      intro e he
      rw [bne_iff_ne]
      intro heq
      rw [heq] at hstart
      exact (hno pre hpre).1 e he hstart
    have hne : ∀ o ∈ ["SELFDESTRUCT", "RETURNDATASIZE", "RETURNDATACOPY", "PUSH0"], pre ++ toString n ≠ o := by
      intro o ho heq
      rw [heq] at hstart
      exact (hno pre hpre).2 o ho hstart
    have hhead : (pre ++ toString n).toList.head? = pre.toList.head? := by
      rw [String.toList_append]
      simp only [List.mem_cons, List.not_mem_nil, or_false] at hpre
      rcases hpre with rfl | rfl <;> rfl
    have hpush : ∀ q ∈ ["PUSH", "tag"], q.toList.isPrefixOf (pre ++ toString n).toList = false := by
      intro q hq
      rw [Bool.eq_false_iff]
      intro hp
      obtain ⟨t, ht⟩ := List.isPrefixOf_iff_prefix.1 hp
      rw [← ht] at hhead
      simp only [List.mem_cons, List.not_mem_nil, or_false] at hpre hq
      rcases hpre with rfl | rfl <;> rcases hq with rfl | rfl <;> simp at hhead
    have hnum : ∀ q ∈ ["DUP", "SWAP"], numbered q 16 (pre ++ toString n) = none := by
      intro q hq
      unfold numbered
      rw [List.find?_eq_none]
      intro i hi
      rw [beq_iff_eq]
      intro heq
      have hl : pre.toList ++ (toString n).toList = q.toList ++ (toString (i + 1)).toList := by
        rw [← String.toList_append, ← String.toList_append, heq]
      simp only [List.mem_cons, List.not_mem_nil, or_false] at hpre hq
      have hi := List.mem_range.1 hi
      have hs : toString n = toString (i + 1) := by
        rcases hpre with rfl | rfl <;> rcases hq with rfl | rfl <;> simp at hl
        · exact String.toList_inj.1 (by simpa using hl)
        · exact String.toList_inj.1 (by simpa using hl)
      have : n = i + 1 := Grey.Names.toString_inj hs
      omega
    unfold getOpcode
    rw [hlook]
    simp only
    rw [if_neg (hne _ (by simp)), if_neg (hne _ (by simp)), if_neg (hne _ (by simp)), if_neg (hne _ (by simp)),
      if_neg (by rw [hpush _ (by simp)]; simp), if_neg (by rw [hpush _ (by simp)]; simp), hnum _ (by simp), hnum _ (by simp)]
  exact ⟨key _ (by simp), key _ (by simp)⟩

/-- **C10.** Every EVM operation takes one byte. -/
theorem size_of_operation (fuel : Nat) (val : Option Int) : ∀ e ∈ evm, getInsSize fuel e.1 val = some 1 := by
  have h : ∀ e ∈ evm, e.1 ∉ pseudoSizes.map (·.1) ∧ e.1 ≠ "PUSH" ∧ (e.1 ≠ "PUSH0" → ("PUSH".toList.isPrefixOf e.1.toList) = false) := by
    decide +kernel
  intro e he
  obtain ⟨h1, h2, h3⟩ := h e he
  simp only [pseudoSizes, List.map_cons, List.map_nil, List.mem_cons, List.not_mem_nil, or_false, not_or] at h1
  unfold getInsSize
  by_cases h0 : e.1 = "PUSH0"
  · rw [h0]; simp
  · have := h3 h0
    simp only [h1, h2, h0, this, or_self, if_false, Bool.not_false, if_true]

/-- **C10.** The sizes of the items of the assembly that are not operations of the EVM. -/
theorem size_of_pseudo (fuel : Nat) (val : Option Int) : ∀ e ∈ pseudoSizes, getInsSize fuel e.1 val = some e.2 := by
  intro e he
  simp only [pseudoSizes, List.mem_cons, List.not_mem_nil, or_false] at he
  rcases he with rfl | rfl | rfl | rfl | rfl | rfl | rfl | rfl | rfl | rfl <;> simp [getInsSize]

end Grey.Opcodes
