import Mathlib.Data.List.Basic

/-!
# C40: the algebraic simplification rules

Model of `apply_transform` (src/cfg_methods/rule_simplification.py:144-390) and of the functions that read its arguments.
The file does not compile as it stands (a block is indented wrongly at line 894 and there is a stray letter at line 903,
both in another function), so nothing in it is reachable; the rules are checked as they are written.
-/

namespace Grey.Rules

/-- An entry of `inp_vars`: a Python string or a Python integer. -/
inductive Val where
  | str (s : String)
  | int (n : Nat)
deriving DecidableEq

/-- What `apply_transform` gives back: `-1` (no rule), the value to use instead of the result, or an exception. -/
inductive Res where
  | noRule
  | val (v : Val)
  | error
deriving DecidableEq

/-- `get_input_assigment` (src/cfg_methods/rule_simplification.py:118-133): it computes `inp_ret` and returns `inp`, so the
argument comes back as the string it was. -/
def getInputAssigment (inp : String) : Val := .str inp

/-- `get_input_values` (src/cfg_methods/rule_simplification.py:135-141). -/
def getInputValues (inps : List String) : List Val := inps.map getInputAssigment

/-- `-1+2**256` (src/cfg_methods/rule_simplification.py:145). -/
def allOnes : Nat := 2 ^ 256 - 1

/-- `opcode == "and"` (src/cfg_methods/rule_simplification.py:152-171). -/
def ruleAnd (a b : Val) : Res :=
  if a = .int 0 ∨ b = .int 0 then .val (.str "0x00")
  else if a = b then .val a
  else if a = .int allOnes ∨ b = .int allOnes then .val (if a = .int allOnes then b else a)
  else .noRule

/-- `opcode == "or"` (lines 173-186). -/
def ruleOr (a b : Val) : Res :=
  if a = .int 0 ∨ b = .int 0 then .val (if a = .int 0 then b else a)
  else if a = b then .val a
  else .noRule

/-- `opcode == "xor"` (lines 188-201). -/
def ruleXor (a b : Val) : Res :=
  if a = b then .val (.str "0x00")
  else if a = .int 0 ∨ b = .int 0 then .val (if a = .int 0 then b else a)
  else .noRule

/-- `opcode == "exp"` (lines 203-221). -/
def ruleExp (a b : Val) : Res :=
  if b = .int 0 then .val (.str "0x01")
  else if b = .int 1 then .val a
  else if a = .int 1 then .val (.str "0x01")
  else .noRule

/-- `opcode == "add"` (lines 223-230). -/
def ruleAdd (a b : Val) : Res :=
  if a = .int 0 ∨ b = .int 0 then .val (if a = .int 0 then b else a) else .noRule

/-- `opcode == "sub"` (lines 232-243). -/
def ruleSub (a b : Val) : Res :=
  if b = .int 0 then .val a
  else if a = b then .val (.str "0x00")
  else .noRule

/-- `opcode == "mul"` (lines 245-257). -/
def ruleMul (a b : Val) : Res :=
  if a = .int 0 ∨ b = .int 0 then .val (.str "0x00")
  else if a = .int 1 ∨ b = .int 1 then .val (if a = .int 1 then b else a)
  else .noRule

/-- `opcode == "div" or opcode == "sdiv"` (lines 259-276). -/
def ruleDiv (a b : Val) : Res :=
  if b = .int 1 then .val a
  else if a = .int 0 ∨ b = .int 0 then .val (.str "0x00")
  else if a = b then .val (.str "0x01")
  else .noRule

/-- `opcode == "mod"` (lines 278-295). -/
def ruleMod (a b : Val) : Res :=
  if b = .int 1 then .val (.str "0x00")
  else if a = b then .val (.str "0x00")
  else if b = .int 0 then .val (.str "0x00")
  else .noRule

/-- `opcode == "eq"` (lines 297-305). -/
def ruleEq (a b : Val) : Res := if a = b then .val (.str "0x01") else .noRule

/-- `opcode == "gt" or opcode == "sgt"` (lines 307-321); the first case asks for the name in capitals. -/
def ruleGt (op : String) (a b : Val) : Res :=
  if a = .int 0 ∧ op = "GT" then .val (.str "0x00")
  else if a = b then .val (.str "0x00")
  else .noRule

/-- `opcode == "lt" or opcode == "slt"` (lines 323-337). -/
def ruleLt (op : String) (a b : Val) : Res :=
  if b = .int 0 ∧ op = "LT" then .val (.str "0x00")
  else if a = b then .val (.str "0x00")
  else .noRule

/-- `opcode == "iszero"` (lines 365-377). -/
def ruleIszero (a : Val) : Res :=
  if a = .int 0 then .val (.str "0x01")
  else if a = .int 1 then .val (.str "0x00")
  else .noRule

/-- `opcode == "shr" or opcode == "shl"` (lines 379-390). -/
def ruleShift (a b : Val) : Res :=
  if a = .int 0 then .val a
  else if b = .int 0 then .val a
  else .noRule

/-- The choice of the rule (src/cfg_methods/rule_simplification.py:152-390), for two arguments. -/
def transform2 (op : String) (a b : Val) : Res :=
  if op = "and" then ruleAnd a b
  else if op = "or" then ruleOr a b
  else if op = "xor" then ruleXor a b
  else if op = "exp" then ruleExp a b
  else if op = "add" then ruleAdd a b
  else if op = "sub" then ruleSub a b
  else if op = "mul" then ruleMul a b
  else if op = "div" ∨ op = "sdiv" then ruleDiv a b
  else if op = "mod" then ruleMod a b
  else if op = "eq" then ruleEq a b
  else if op = "gt" ∨ op = "sgt" then ruleGt op a b
  else if op = "lt" ∨ op = "slt" then ruleLt op a b
  else if op = "shr" ∨ op = "shl" then ruleShift a b
  else .noRule

/-- The choice of the rule for one argument. The rule for `not` (lines 339-363) calls `all_integers`, which is not
defined anywhere: an exception. -/
def transform1 (op : String) (a : Val) : Res :=
  if op = "not" then .error
  else if op = "iszero" then ruleIszero a
  else .noRule

/-- `apply_transform` (src/cfg_methods/rule_simplification.py:144-390) after reading the arguments, for operations with
the number of arguments they have in the EVM; any other number is reported as an exception here. -/
def applyRules (op : String) : List Val → Res
  | [a, b] => transform2 op a b
  | [a] => transform1 op a
  | _ => .error

/-- `apply_transform` on an instruction. -/
def applyTransform (op : String) (inps : List String) : Res := applyRules op (getInputValues inps)

/-! ## Specification: the EVM operations on 256-bit words -/

abbrev Word := BitVec 256

def ofBool (b : Bool) : Word := if b then 1 else 0

/-- The value of a two-argument operation, first argument at the top of the stack. -/
def evm2 (op : String) (a b : Word) : Option Word :=
  if op = "and" then some (a &&& b)
  else if op = "or" then some (a ||| b)
  else if op = "xor" then some (a ^^^ b)
  else if op = "exp" then some (BitVec.ofNat 256 (a.toNat ^ b.toNat))
  else if op = "add" then some (a + b)
  else if op = "sub" then some (a - b)
  else if op = "mul" then some (a * b)
  else if op = "div" then some (BitVec.ofNat 256 (a.toNat / b.toNat))
  else if op = "sdiv" then some (BitVec.ofInt 256 (a.toInt.tdiv b.toInt))
  else if op = "mod" then some (if b = 0 then 0 else BitVec.ofNat 256 (a.toNat % b.toNat))
  else if op = "eq" then some (ofBool (a == b))
  else if op = "gt" then some (ofBool (decide (b.toNat < a.toNat)))
  else if op = "sgt" then some (ofBool (decide (b.toInt < a.toInt)))
  else if op = "lt" then some (ofBool (decide (a.toNat < b.toNat)))
  else if op = "slt" then some (ofBool (decide (a.toInt < b.toInt)))
  else if op = "shl" then some (BitVec.ofNat 256 (b.toNat * 2 ^ a.toNat))
  else if op = "shr" then some (BitVec.ofNat 256 (b.toNat / 2 ^ a.toNat))
  else none

/-- The value of a one-argument operation. -/
def evm1 (op : String) (a : Word) : Option Word :=
  if op = "not" then some (~~~a)
  else if op = "iszero" then some (ofBool (a == 0))
  else none

def evm (op : String) : List Word → Option Word
  | [a, b] => evm2 op a b
  | [a] => evm1 op a
  | _ => none

/-- The value of an argument in an environment giving a value to every name and literal. -/
def value (env : String → Word) : Val → Word
  | .str s => env s
  | .int n => BitVec.ofNat 256 n

/-- The two literals the rules introduce have their value. -/
def Sane (env : String → Word) : Prop := env "0x00" = 0 ∧ env "0x01" = 1

/-- The rule for a division by itself, applied to a zero. -/
def ZeroByZero (env : String → Word) (op : String) (args : List Val) : Prop :=
  (op = "div" ∨ op = "sdiv") ∧ ∃ a, args = [a, a] ∧ value env a = 0

/-- The rule for a shift by zero. -/
def ShiftByZero (op : String) (args : List Val) : Prop :=
  (op = "shl" ∨ op = "shr") ∧ ∃ b, args = [.int 0, b]

/-- The rule for the shift of a zero. -/
def ShiftOfZero (op : String) (args : List Val) : Prop :=
  (op = "shl" ∨ op = "shr") ∧ ∃ a, args = [a, .int 0]

/-! ## Proofs -/

theorem ofNat_allOnes : BitVec.ofNat 256 allOnes = BitVec.allOnes 256 := by
  apply BitVec.eq_of_toNat_eq
  simp [allOnes]

theorem value_allOnes (env : String → Word) : value env (.int allOnes) = BitVec.allOnes 256 := ofNat_allOnes

theorem ofBool_false : ofBool false = 0 := rfl
theorem ofBool_true : ofBool true = 1 := rfl

section
variable {env : String → Word} (hs : Sane env) {a b r : Val}
include hs

theorem and_ok (h : ruleAnd a b = .val r) : value env a &&& value env b = value env r := by
  unfold ruleAnd at h
  split at h
  · next c =>
    cases h
    rcases c with rfl | rfl <;> simp [value, hs.1]
  · split at h
    · next c => cases h; subst c; simp
    · split at h
      · next c =>
        split at h
        · next d => cases h; subst d; rw [value_allOnes, BitVec.allOnes_and]
        · next d =>
          cases h
          rcases c with c | c
          · exact absurd c d
          · subst c; rw [value_allOnes, BitVec.and_allOnes]
      · cases h

omit hs in
theorem or_ok (h : ruleOr a b = .val r) : value env a ||| value env b = value env r := by
  unfold ruleOr at h
  split at h
  · next c =>
    split at h
    · next d => cases h; subst d; simp [value]
    · next d =>
      cases h
      rcases c with c | c
      · exact absurd c d
      · subst c; simp [value]
  · split at h
    · next c => cases h; subst c; simp
    · cases h

theorem xor_ok (h : ruleXor a b = .val r) : value env a ^^^ value env b = value env r := by
  unfold ruleXor at h
  split at h
  · next c => cases h; subst c; simp [value, hs.1]
  · split at h
    · next c =>
      split at h
      · next d => cases h; subst d; simp [value]
      · next d =>
        cases h
        rcases c with c | c
        · exact absurd c d
        · subst c; simp [value]
    · cases h

theorem exp_ok (h : ruleExp a b = .val r) :
    BitVec.ofNat 256 ((value env a).toNat ^ (value env b).toNat) = value env r := by
  unfold ruleExp at h
  split at h
  · next c => cases h; subst c; simp [value, hs.2]
  · split at h
    · next c => cases h; subst c; simp [value]
    · split at h
      · next c => cases h; subst c; simp [value, hs.2]
      · cases h

omit hs in
theorem add_ok (h : ruleAdd a b = .val r) : value env a + value env b = value env r := by
  unfold ruleAdd at h
  split at h
  · next c =>
    split at h
    · next d => cases h; subst d; simp [value]
    · next d =>
      cases h
      rcases c with c | c
      · exact absurd c d
      · subst c; simp [value]
  · cases h

theorem sub_ok (h : ruleSub a b = .val r) : value env a - value env b = value env r := by
  unfold ruleSub at h
  split at h
  · next c => cases h; subst c; simp [value]
  · split at h
    · next c => cases h; subst c; simp [value, hs.1]
    · cases h

theorem mul_ok (h : ruleMul a b = .val r) : value env a * value env b = value env r := by
  unfold ruleMul at h
  split at h
  · next c => cases h; rcases c with rfl | rfl <;> simp [value, hs.1]
  · split at h
    · next c =>
      split at h
      · next d => cases h; subst d; simp [value]
      · next d =>
        cases h
        rcases c with c | c
        · exact absurd c d
        · subst c; simp [value]
    · cases h

theorem div_ok (h : ruleDiv a b = .val r) (hz : ¬(a = b ∧ value env a = 0)) :
    BitVec.ofNat 256 ((value env a).toNat / (value env b).toNat) = value env r := by
  unfold ruleDiv at h
  split at h
  · next c => cases h; subst c; simp [value]
  · split at h
    · next c => cases h; rcases c with rfl | rfl <;> simp [value, hs.1]
    · split at h
      · next c =>
        cases h; subst c
        have : (value env a).toNat ≠ 0 := fun e => hz ⟨rfl, BitVec.eq_of_toNat_eq (by simpa using e)⟩
        rw [Nat.div_self (by omega)]
        simp [value, hs.2]
      · cases h

theorem sdiv_ok (h : ruleDiv a b = .val r) (hz : ¬(a = b ∧ value env a = 0)) :
    BitVec.ofInt 256 ((value env a).toInt.tdiv (value env b).toInt) = value env r := by
  unfold ruleDiv at h
  split at h
  · next c =>
    cases h; subst c
    have : (value env (.int 1)).toInt = 1 := by simp [value]
    rw [this]; simp
  · split at h
    · next c =>
      cases h
      have : (value env (.int 0)).toInt = 0 := by simp [value]
      rcases c with rfl | rfl <;> rw [this] <;> simp [value, hs.1]
    · split at h
      · next c =>
        cases h; subst c
        have : (value env a).toInt ≠ 0 := fun e => hz ⟨rfl, BitVec.eq_of_toInt_eq (by simpa using e)⟩
        rw [Int.tdiv_self this]
        simp [value, hs.2]
      · cases h

theorem mod_ok (h : ruleMod a b = .val r) :
    (if value env b = 0 then 0 else BitVec.ofNat 256 ((value env a).toNat % (value env b).toNat)) = value env r := by
  unfold ruleMod at h
  split at h
  · next c => cases h; subst c; simp [value, hs.1, Nat.mod_one]
  · split at h
    · next c => cases h; subst c; simp [value, hs.1]
    · split at h
      · next c => cases h; subst c; simp [value, hs.1]
      · cases h

theorem eq_ok (h : ruleEq a b = .val r) : ofBool (value env a == value env b) = value env r := by
  unfold ruleEq at h
  split at h
  · next c => cases h; subst c; simp [value, hs.2, ofBool]
  · cases h

theorem gt_ok {op : String} (h : ruleGt op a b = .val r) (ho : op ≠ "GT") (lt : Word → Word → Bool)
    (hl : ∀ x, lt x x = false) : ofBool (lt (value env b) (value env a)) = value env r := by
  unfold ruleGt at h
  rw [if_neg (fun c => ho c.2)] at h
  split at h
  · next c => cases h; subst c; rw [hl]; simp [value, hs.1, ofBool]
  · cases h

theorem lt_ok {op : String} (h : ruleLt op a b = .val r) (ho : op ≠ "LT") (lt : Word → Word → Bool)
    (hl : ∀ x, lt x x = false) : ofBool (lt (value env a) (value env b)) = value env r := by
  unfold ruleLt at h
  rw [if_neg (fun c => ho c.2)] at h
  split at h
  · next c => cases h; subst c; rw [hl]; simp [value, hs.1, ofBool]
  · cases h

theorem iszero_ok (h : ruleIszero a = .val r) : ofBool (value env a == 0) = value env r := by
  unfold ruleIszero at h
  split at h
  · next c => cases h; subst c; simp [value, hs.2, ofBool]
  · split at h
    · next c => cases h; subst c; simp [value, hs.1, ofBool]
    · cases h

end

/-- C40 (part): whatever the arguments are, a rule that applies gives the value the EVM operation has on them, in every
environment. Three rules are set apart: a division by itself when the argument is zero, a shift by the integer zero, and
a shift of the integer zero. The first two are wrong (`div_self_wrong`, `shift_by_zero_wrong`), and so is the third
(`shift_of_zero_wrong`). -/
theorem rules_sound_partial (env : String → Word) (hs : Sane env) (op : String) (args : List Val) (r : Val)
    (h : applyRules op args = .val r) (h1 : ¬ZeroByZero env op args) (h2 : ¬ShiftByZero op args)
    (h3 : ¬ShiftOfZero op args) : evm op (args.map (value env)) = some (value env r) := by
  match args, h, h1, h2, h3 with
  | [], h, _, _, _ => cases h
  | [a], h, _, _, _ =>
    simp only [applyRules, transform1] at h
    simp only [List.map, evm, evm1]
    split at h
    · cases h
    · next c =>
      split at h
      · next d => rw [if_neg c, if_pos d, iszero_ok hs h]
      · cases h
  | [a, b], h, h1, h2, h3 =>
    have hz : (op = "div" ∨ op = "sdiv") → ¬(a = b ∧ value env a = 0) := by
      rintro ho ⟨rfl, e⟩
      exact h1 ⟨ho, a, rfl, e⟩
    change transform2 op a b = _ at h
    unfold transform2 at h
    change evm2 op (value env a) (value env b) = _
    unfold evm2
    by_cases d0 : op = "and"
    · rw [if_pos d0] at h
      have c := d0
      rw [if_pos c, and_ok hs h]
    rw [if_neg d0] at h
    have c1 := d0
    rw [if_neg c1]
    by_cases d1 : op = "or"
    · rw [if_pos d1] at h
      have c := d1
      rw [if_pos c, or_ok h]
    rw [if_neg d1] at h
    have c2 := d1
    rw [if_neg c2]
    by_cases d2 : op = "xor"
    · rw [if_pos d2] at h
      have c := d2
      rw [if_pos c, xor_ok hs h]
    rw [if_neg d2] at h
    have c3 := d2
    rw [if_neg c3]
    by_cases d3 : op = "exp"
    · rw [if_pos d3] at h
      have c := d3
      rw [if_pos c, exp_ok hs h]
    rw [if_neg d3] at h
    have c4 := d3
    rw [if_neg c4]
    by_cases d4 : op = "add"
    · rw [if_pos d4] at h
      have c := d4
      rw [if_pos c, add_ok h]
    rw [if_neg d4] at h
    have c5 := d4
    rw [if_neg c5]
    by_cases d5 : op = "sub"
    · rw [if_pos d5] at h
      have c := d5
      rw [if_pos c, sub_ok hs h]
    rw [if_neg d5] at h
    have c6 := d5
    rw [if_neg c6]
    by_cases d6 : op = "mul"
    · rw [if_pos d6] at h
      have c := d6
      rw [if_pos c, mul_ok hs h]
    rw [if_neg d6] at h
    have c7 := d6
    rw [if_neg c7]
    by_cases d7 : op = "div" ∨ op = "sdiv"
    · rw [if_pos d7] at h
      have c := d7
      rcases c with c | c
      · rw [if_pos c, div_ok hs h (hz (.inl c))]
      · rw [if_neg (by rw [c]; decide), if_pos c, sdiv_ok hs h (hz (.inr c))]
    rw [if_neg d7] at h
    have c8 := d7
    rw [if_neg (fun e => c8 (.inl e)), if_neg (fun e => c8 (.inr e))]
    by_cases d8 : op = "mod"
    · rw [if_pos d8] at h
      have c := d8
      rw [if_pos c, mod_ok hs h]
    rw [if_neg d8] at h
    have c9 := d8
    rw [if_neg c9]
    by_cases d9 : op = "eq"
    · rw [if_pos d9] at h
      have c := d9
      rw [if_pos c, eq_ok hs h]
    rw [if_neg d9] at h
    have c10 := d9
    rw [if_neg c10]
    by_cases d10 : op = "gt" ∨ op = "sgt"
    · rw [if_pos d10] at h
      have c := d10
      rcases c with c | c
      · rw [if_pos c]
        exact congrArg some (gt_ok hs h (by rw [c]; decide) (fun x y => decide (x.toNat < y.toNat)) (by simp))
      · rw [if_neg (by rw [c]; decide), if_pos c]
        exact congrArg some (gt_ok hs h (by rw [c]; decide) (fun x y => decide (x.toInt < y.toInt)) (by simp))
    rw [if_neg d10] at h
    have c11 := d10
    rw [if_neg (fun e => c11 (.inl e)), if_neg (fun e => c11 (.inr e))]
    by_cases d11 : op = "lt" ∨ op = "slt"
    · rw [if_pos d11] at h
      have c := d11
      rcases c with c | c
      · rw [if_pos c]
        exact congrArg some (lt_ok hs h (by rw [c]; decide) (fun x y => decide (x.toNat < y.toNat)) (by simp))
      · rw [if_neg (by rw [c]; decide), if_pos c]
        exact congrArg some (lt_ok hs h (by rw [c]; decide) (fun x y => decide (x.toInt < y.toInt)) (by simp))
    rw [if_neg d11] at h
    have c12 := d11
    by_cases d12 : op = "shr" ∨ op = "shl"
    · rw [if_pos d12] at h
      have c := d12
      exfalso
      have ho : op = "shl" ∨ op = "shr" := c.symm
      unfold ruleShift at h
      split at h
      · next d => exact h2 ⟨ho, b, by rw [d]⟩
      · split at h
        · next d => exact h3 ⟨ho, a, by rw [d]⟩
        · cases h
    · rw [if_neg d12] at h
      cases h
  | _ :: _ :: _ :: _, h, _, _, _ => cases h

/-- C40 (part), for the code as it is: since the arguments are compared as strings, a rule applies to an instruction only
when its two arguments are the same, and the value is right unless the instruction is a division of a zero by
itself. -/
theorem transform_sound_partial (env : String → Word) (hs : Sane env) (op : String) (args : List String) (r : Val)
    (h : applyTransform op args = .val r)
    (h1 : ¬((op = "div" ∨ op = "sdiv") ∧ ∃ a, args = [a, a] ∧ env a = 0)) :
    evm op (args.map env) = some (value env r) := by
  have e : args.map env = (getInputValues args).map (value env) := by
    simp [getInputValues, getInputAssigment, value]
  rw [e]
  refine rules_sound_partial env hs op _ r h ?_ ?_ ?_
  · rintro ⟨ho, a, ha, hv⟩
    match args, ha with
    | [x, y], ha =>
      simp only [getInputValues, getInputAssigment, List.map, List.cons.injEq, and_true] at ha
      obtain ⟨rfl, hy⟩ := ha
      simp only [Val.str.injEq] at hy
      exact h1 ⟨ho, x, by rw [hy], hv⟩
  · rintro ⟨-, b, hb⟩
    match args, hb with
    | [x, y], hb => simp [getInputValues, getInputAssigment] at hb
  · rintro ⟨-, b, hb⟩
    match args, hb with
    | [x, y], hb => simp [getInputValues, getInputAssigment] at hb

/-- The environment giving `x` the value `w` and every other name the value of its literal, or zero. -/
def envOf (w : Word) (s : String) : Word := if s = "x" then w else if s = "0x01" then 1 else 0

example (w : Word) : Sane (envOf w) := ⟨by simp [envOf], by simp [envOf]⟩

/-- `x - x`, `x and x`, and a comparison of a value with itself are simplified, to the right values. -/
example (w : Word) : applyTransform "sub" ["x", "x"] = .val (.str "0x00") ∧ evm "sub" [w, w] = some 0 ∧
    applyTransform "sgt" ["x", "x"] = .val (.str "0x00") ∧ applyTransform "and" ["x", "x"] = .val (.str "x") := by
  refine ⟨by decide +kernel, ?_, by decide +kernel, by decide +kernel⟩
  simp [evm, evm2]

/-- `div(x, x)` is replaced by 1, but it is 0 when `x` is 0. -/
theorem div_self_wrong : applyTransform "div" ["x", "x"] = .val (.str "0x01") ∧
    evm "div" [envOf 0 "x", envOf 0 "x"] = some 0 ∧ envOf 0 "0x01" ≠ 0 := by decide +kernel

/-- The rule for a shift by zero gives the zero, not the value shifted. -/
theorem shift_by_zero_wrong : applyRules "shl" [.int 0, .str "x"] = .val (.int 0) ∧
    evm "shl" [0, envOf 5 "x"] = some 5 := by decide +kernel

/-- The rule for the shift of a zero gives the amount of the shift, not zero. -/
theorem shift_of_zero_wrong : applyRules "shl" [.str "x", .int 0] = .val (.str "x") ∧
    evm "shl" [envOf 5 "x", 0] = some 0 := by decide +kernel

/-- A product by the literal zero is not simplified: the literal is compared as a string. -/
theorem literals_not_read : applyTransform "mul" ["x", "0x00"] = .noRule := by decide +kernel

end Grey.Rules
