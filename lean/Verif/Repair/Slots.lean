/-
Memory slots of spilled variables (src/reparation/tree_scan.py:214-217, src/reparation/colour_assignment.py:32-33,
src/reparation/repair_unreachable.py:32-63, 95-101, 119-139): C30.
-/
import Verif.Opcodes.Model
import Verif.Opcodes.Spec
import Verif.SymExec.Model
import Mathlib.Data.List.Basic
namespace Grey.Repair
open List

/-! ### Model -/

/-- `hex(n)[2:]` -/
def hexOf (n : Nat) : String := String.ofList (Opcodes.hexDigits n)

/-- `int(s, 16)`, for a text of lower-case hexadecimal digits. -/
def intOf (s : String) : Nat := Opcodes.hexVal s.toList

/-- src/reparation/tree_scan.py:214-217 -/
def slotConstants (base : String) (num : Nat) : List String := (range num).map fun i => hexOf (intOf base + 32 * i)

/-- src/reparation/colour_assignment.py:32-33: `colours` are the values of the dictionary from variables to colours. `none`: the
ValueError of `max` of nothing, or the IndexError. -/
def nextConstant (constants : List String) (colours : List Nat) : Option String := colours.max?.bind fun m => constants[m]?

/-- src/reparation/repair_unreachable.py:95-101: the constant after repairing a block list, with `num` the number of values to store
and the colours assigned to them. -/
def nextBase (base : String) (num : Nat) (colours : List Nat) : Option String :=
  if num = 0 then some base else (nextConstant (slotConstants base num) colours).map fun u => hexOf (intOf u + 32)

/-- src/reparation/repair_unreachable.py:36-57: the block lists to be repaired (main code first, then the functions in order), each
with its number of values and its colours. Returns the base constant of each list and the final constant. -/
def repairLists : List (Nat × List Nat) → String → Option (List String × String)
  | [], base => some ([], base)
  | l :: ls, base => (nextBase base l.1 l.2).bind fun b => (repairLists ls b).map fun r => (base :: r.1, r.2)

/-- The address of a colour in the code of a block list with the given base constant
(src/reparation/tree_scan.py:134-150: `color_to_constant[colour]`). -/
def slotAddress (base : String) (num : Nat) (colour : Nat) : Option Nat := ((slotConstants base num)[colour]?).map intOf

/-! ### Specification -/

/-- Two memory words have no byte in common. -/
def NoOverlap (a b : Nat) : Prop := ∀ x, ¬ ((a ≤ x ∧ x < a + 32) ∧ (b ≤ x ∧ x < b + 32))

/-! ### Proofs -/

theorem hexVal_append (l : List Char) (c : Char) :
    Opcodes.hexVal (l ++ [c]) = 16 * Opcodes.hexVal l + (if c.toNat < 58 then c.toNat - 48 else c.toNat - 87) := by
  simp [Opcodes.hexVal, foldl_append]

theorem hexChar_val : ∀ d < 16, (if (Opcodes.hexChar d).toNat < 58 then (Opcodes.hexChar d).toNat - 48 else (Opcodes.hexChar d).toNat - 87) = d := by
  decide

/-- Printing and reading hexadecimal numbers. -/
theorem hexVal_hexDigits (n : Nat) : Opcodes.hexVal (Opcodes.hexDigits n) = n := by
  induction n using Nat.strongRecOn with
  | _ n ih =>
    unfold Opcodes.hexDigits
    split
    · rename_i h
      have := hexVal_append [] (Opcodes.hexChar n)
      rw [nil_append] at this
      rw [this, hexChar_val n h]
      simp [Opcodes.hexVal]
    · rename_i h
      rw [hexVal_append, ih (n / 16) (by omega), hexChar_val (n % 16) (by omega)]
      omega

theorem intOf_hexOf (n : Nat) : intOf (hexOf n) = n := by
  simp [intOf, hexOf, hexVal_hexDigits]

theorem slotAddress_eq {base : String} {num c a : Nat} (h : slotAddress base num c = some a) : a = intOf base + 32 * c ∧ c < num := by
  unfold slotAddress slotConstants at h
  obtain ⟨s, hs, rfl⟩ := Option.map_eq_some_iff.1 h
  rw [getElem?_map] at hs
  obtain ⟨i, hi, rfl⟩ := Option.map_eq_some_iff.1 hs
  rw [List.getElem?_eq_some_iff] at hi
  obtain ⟨h1, h2⟩ := hi
  simp only [getElem_range] at h2
  subst h2
  exact ⟨intOf_hexOf _, by simpa using h1⟩

theorem le_max {l : List Nat} {m : Nat} (h : l.max? = some m) : ∀ c ∈ l, c ≤ m := by
  intro c hc
  exact (max?_le_iff h).1 (Nat.le_refl m) c hc

theorem nextBase_eq {base b : String} {num : Nat} {colours : List Nat} (h : nextBase base num colours = some b) :
    intOf base ≤ intOf b ∧ (num ≠ 0 → ∀ c ∈ colours, c < num ∧ intOf base + 32 * c + 32 ≤ intOf b) := by
  unfold nextBase at h
  split at h
  · rename_i h0
    cases h
    exact ⟨Nat.le_refl _, fun hh => absurd h0 hh⟩
  · obtain ⟨u, hu, rfl⟩ := Option.map_eq_some_iff.1 h
    obtain ⟨m, hm, hmu⟩ := Option.bind_eq_some_iff.1 hu
    have := slotAddress_eq (base := base) (num := num) (c := m) (a := intOf u) (by unfold slotAddress; rw [hmu]; rfl)
    rw [intOf_hexOf, this.1]
    refine ⟨by omega, fun _ c hc => ?_⟩
    have := le_max hm c hc
    omega

theorem noOverlap_of_le {a b : Nat} (h : a + 32 ≤ b ∨ b + 32 ≤ a) : NoOverlap a b := by
  rintro x ⟨⟨h1, h2⟩, h3, h4⟩
  omega

theorem repairLists_inv : ∀ (ls : List (Nat × List Nat)) (base : String) (bases : List String) (fin : String),
    repairLists ls base = some (bases, fin) → bases.length = ls.length ∧ intOf base ≤ intOf fin ∧
      (∀ (i : Nat) (l : Nat × List Nat), ls[i]? = some l → ∃ b, bases[i]? = some b ∧ intOf base ≤ intOf b ∧
        ∀ c ∈ l.2, ∀ a, slotAddress b l.1 c = some a → intOf b ≤ a ∧ a + 32 ≤ intOf fin ∧
          ∀ (j : Nat) (b' : String), i < j → bases[j]? = some b' → a + 32 ≤ intOf b') := by
  intro ls
  induction ls with
  | nil =>
    intro base bases fin h
    cases h
    exact ⟨rfl, Nat.le_refl _, by intro i l hl; simp at hl⟩
  | cons l ls ih =>
    intro base bases fin h
    unfold repairLists at h
    obtain ⟨b, hb, hr⟩ := Option.bind_eq_some_iff.1 h
    obtain ⟨⟨bs, fin'⟩, hr', he⟩ := Option.map_eq_some_iff.1 hr
    cases he
    obtain ⟨i1, i2, i3⟩ := ih b bs _ hr'
    show _ ∧ intOf base ≤ intOf fin' ∧ _
    obtain ⟨n1, n2⟩ := nextBase_eq hb
    refine ⟨by simp [i1], by omega, ?_⟩
    intro i l' hl'
    cases i with
    | zero =>
      simp only [getElem?_cons_zero, Option.some.injEq] at hl'
      subst hl'
      refine ⟨base, by simp, Nat.le_refl _, ?_⟩
      intro c hc a ha
      obtain ⟨e, hlt⟩ := slotAddress_eq ha
      obtain ⟨_, hle⟩ := n2 (by omega) c hc
      refine ⟨by omega, by show a + 32 ≤ intOf fin'; omega, ?_⟩
      intro j b' hj hb'
      cases j with
      | zero => omega
      | succ j =>
        simp only [getElem?_cons_succ] at hb'
        have hjl : j < ls.length := by rw [← i1]; exact (List.getElem?_eq_some_iff.1 hb').1
        obtain ⟨b'', h1, h2, _⟩ := i3 j ls[j] (List.getElem?_eq_some_iff.2 ⟨hjl, rfl⟩)
        rw [hb'] at h1
        cases h1
        omega
    | succ i =>
      simp only [getElem?_cons_succ] at hl'
      obtain ⟨b1, h1, h2, h3⟩ := i3 i l' hl'
      refine ⟨b1, by simpa using h1, by omega, ?_⟩
      intro c hc a ha
      obtain ⟨k1, k2, k3⟩ := h3 c hc a ha
      refine ⟨k1, k2, ?_⟩
      intro j b' hj hb'
      cases j with
      | zero => omega
      | succ j => exact k3 j b' (by omega) (by simpa using hb')

/-- **C30.** Repairing the block lists of an object, whatever the numbers of values and the colours: every assigned colour has a
slot; slots of different colours of a list, and slots of different lists, have no byte in common; all slots lie between the
original constant (the beginning of the memory reserved for the program) and the final one, which replaces it. -/
theorem slots_disjoint (ls : List (Nat × List Nat)) (base : String) (bases : List String) (fin : String)
    (h : repairLists ls base = some (bases, fin)) :
    (∀ (i : Nat) (l : Nat × List Nat), ls[i]? = some l → l.1 ≠ 0 → ∃ b, bases[i]? = some b ∧ ∀ c ∈ l.2, ∃ a, slotAddress b l.1 c = some a) ∧
    (∀ (i j : Nat) (l l' : Nat × List Nat) (b b' : String) (c c' a a' : Nat), ls[i]? = some l → ls[j]? = some l' → bases[i]? = some b →
      bases[j]? = some b' → c ∈ l.2 → c' ∈ l'.2 → slotAddress b l.1 c = some a → slotAddress b' l'.1 c' = some a' →
      (i, c) ≠ (j, c') → NoOverlap a a') ∧
    (∀ (i : Nat) (l : Nat × List Nat) (b : String) (c a : Nat), ls[i]? = some l → bases[i]? = some b → c ∈ l.2 → slotAddress b l.1 c = some a →
      intOf base ≤ a ∧ a + 32 ≤ intOf fin) := by
  have hinv := (repairLists_inv ls base bases fin h).2.2
  refine ⟨?_, ?_, ?_⟩
  · -- every colour has a slot
    clear hinv
    intro i l hl hn
    induction ls generalizing base bases i with
    | nil => simp at hl
    | cons m ls ih =>
      unfold repairLists at h
      obtain ⟨b, hb, hr⟩ := Option.bind_eq_some_iff.1 h
      obtain ⟨⟨bs, fin'⟩, hr', he⟩ := Option.map_eq_some_iff.1 hr
      cases he
      cases i with
      | zero =>
        simp only [getElem?_cons_zero, Option.some.injEq] at hl
        subst hl
        refine ⟨base, by simp, ?_⟩
        intro c hc
        have := ((nextBase_eq hb).2 hn c hc).1
        refine ⟨intOf (hexOf (intOf base + 32 * c)), ?_⟩
        simp [slotAddress, slotConstants, this]
      | succ i =>
        simp only [getElem?_cons_succ] at hl
        obtain ⟨b1, h1, h2⟩ := ih b bs hr' i hl
        exact ⟨b1, by simpa using h1, h2⟩
  · intro i j l l' b b' c c' a a' hl hl' hb hb' hc hc' ha ha' hne
    obtain ⟨b1, e1, _, k1⟩ := hinv i l hl
    obtain ⟨b2, e2, _, k2⟩ := hinv j l' hl'
    rw [hb] at e1
    rw [hb'] at e2
    cases e1
    cases e2
    obtain ⟨u1, u2, u3⟩ := k1 c hc a ha
    obtain ⟨v1, v2, v3⟩ := k2 c' hc' a' ha'
    apply noOverlap_of_le
    rcases Nat.lt_trichotomy i j with hij | hij | hij
    · have := u3 j b' hij hb'; omega
    · subst hij
      rw [hb] at hb'
      cases hb'
      rw [hl] at hl'
      cases hl'
      have e1 := (slotAddress_eq ha).1
      have e2 := (slotAddress_eq ha').1
      have : c ≠ c' := by rintro rfl; exact hne rfl
      omega
    · have := v3 i b hij hb; omega
  · intro i l b c a hl hb hc ha
    obtain ⟨b1, e1, h1, k1⟩ := hinv i l hl
    rw [hb] at e1
    cases e1
    obtain ⟨u1, u2, _⟩ := k1 c hc a ha
    omega

/-! ### The theorem applies -/

/-- Main code with three colours used of five, one function that needs none, one with one. -/
example : repairLists [(5, [0, 2, 1, 2]), (0, []), (2, [0])] "80" = some (["80", "e0", "e0"], "100") := by decide +kernel

example : slotAddress "80" 5 2 = some 192 ∧ slotAddress "e0" 2 0 = some 224 := by decide +kernel

/-! ### Setting the constant (src/reparation/repair_unreachable.py:119-139) -/

/-- src/reparation/repair_unreachable.py:133-139: the instruction ids of the start block after `set_first_constant`. `none`: the
IndexError for no instruction, or the assertion. -/
def setFirstConstant (newConstant : String) (ids : List String) : Option (List String) :=
  match ids with
  | [] => none
  | first :: _ =>
    if SymExec.infixOf "PUSH".toList first.toList then some (ids.map fun e => if e = first then "PUSH " ++ newConstant else e) else none

/-- **C45, what is true.** The instructions different from the first one are unchanged, the first one (and all its copies) push the new
constant. -/
theorem setFirstConstant_spec_partial (c : String) (first : String) (ids ids' : List String) (h : setFirstConstant c (first :: ids) = some ids') :
    ids'.length = ids.length + 1 ∧ ids'[0]? = some ("PUSH " ++ c) ∧ ∀ (i : Nat) (e : String), (first :: ids)[i]? = some e → e ≠ first → ids'[i]? = some e := by
  unfold setFirstConstant at h
  split at h
  · cases h
  · rename_i f rest he
    cases he
    split at h
    · cases h
      refine ⟨by simp, by simp, ?_⟩
      intro i e hi hne
      rw [getElem?_map, hi]
      simp [hne]
    · cases h

/-- **C45 fails.** The program `mstore(64, memoryguard(128))`, `return(128, 0)`: equal constants share one instruction id
(src/parser/cfg_instruction.py:195-200, 232), so raising the constant to 0xe0 for the memory guard also changes the argument of `return`. -/
theorem setFirstConstant_changes_others :
    setFirstConstant "e0" ["PUSH_0", "PUSH_1", "MSTORE_0", "PUSH0_0", "PUSH_0", "RETURN_0"]
      = some ["PUSH e0", "PUSH_1", "MSTORE_0", "PUSH0_0", "PUSH e0", "RETURN_0"] := by decide +kernel

/-- **C45 fails.** The first instruction need not be the one for the guard: here it pushes another constant (`PUSH_1`), which is
replaced, and the guard (`PUSH_0`) stays. -/
theorem setFirstConstant_wrong_instruction :
    setFirstConstant "e0" ["PUSH_1", "PUSH_0", "SWAP1", "MSTORE_0"] = some ["PUSH e0", "PUSH_0", "SWAP1", "MSTORE_0"] := by decide +kernel

example : setFirstConstant "e0" ["PUSH_0", "PUSH_1", "MSTORE_0"] = some ["PUSH e0", "PUSH_1", "MSTORE_0"] := by decide +kernel

end Grey.Repair
