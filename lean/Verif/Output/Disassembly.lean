/-
From opcodes to assembly (src/solution_generation/bytecode2asm.py): C34.
-/
import Verif.Repair.Slots
import Verif.Common.Names
namespace Grey.Output
open List

/-! ### Model -/

/-- An assembly instruction: the fields `name` and `value`. -/
structure Item where
  name : String
  value : Option String
  deriving DecidableEq, Repr

/-- `opcode.startswith("PUSH") and opcode != "PUSH0"` (src/solution_generation/bytecode2asm.py:31, 52). -/
def isPush (s : String) : Bool := ("PUSH".toList.isPrefixOf s.toList) && s != "PUSH0"

/-- `opcode.startswith("JUMPDEST")` (src/solution_generation/bytecode2asm.py:35, 61). -/
def isDest (s : String) : Bool := "JUMPDEST".toList.isPrefixOf s.toList

/-- `int(opcode[4:])`; `none`: `ValueError`. Signs, blanks and underscores, which Python accepts, do not occur in opcodes. -/
def pushSize (s : String) : Option Nat :=
  let d := s.toList.drop 4
  if d ≠ [] ∧ d.all Char.isDigit = true then some (Nat.ofDigitChars 10 d 0) else none

/-- The digits of `int(s, 16)`, without the optional `0x`. -/
def hexPart (s : String) : List Char := if "0x".toList.isPrefixOf s.toList then s.toList.drop 2 else s.toList

/-- `int(s, 16)` for lower-case digits, with or without `0x`; `none`: `ValueError`. -/
def pushValue (s : String) : Option Nat :=
  let d := hexPart s
  if d ≠ [] ∧ d.all (fun c => c.isDigit || decide ('a'.toNat ≤ c.toNat ∧ c.toNat ≤ 'f'.toNat)) = true then some (Opcodes.hexVal d) else none

/-- The first loop (src/solution_generation/bytecode2asm.py:24-41): the positions of the jump destinations, with their tags, the newest first.
The token after a push is skipped. -/
def findDests : List String → Nat → Nat → List (Nat × Nat) → Option (List (Nat × Nat))
  | [], _, _, d => some d
  | s :: rest, pc, tag, d =>
    if isPush s then
      match rest with
      | [] => (pushSize s).map fun _ => d
      | _ :: rest => (pushSize s).bind fun n => findDests rest (pc + n + 1) tag d
    else if isDest s then findDests rest (pc + 1) (tag + 1) ((pc, tag) :: d)
    else findDests rest (pc + 1) tag d

/-- `byte2jumpdest`: the last assignment counts. -/
def destOf (d : List (Nat × Nat)) (pc : Nat) : Option Nat := (d.find? fun p => decide (p.1 = pc)).map Prod.snd

/-- The second loop (src/solution_generation/bytecode2asm.py:48-71). `none`: `ValueError`, `IndexError` or `KeyError`. -/
def translateOps (d : List (Nat × Nat)) : List String → Nat → Option (List Item)
  | [], _ => some []
  | s :: rest, pc =>
    if isPush s then
      match rest with
      | [] => none
      | v :: rest => (pushSize s).bind fun n => (pushValue v).bind fun w =>
        (translateOps d rest (pc + n + 1)).map fun r => match destOf d w with
          | some t => ⟨"PUSH [tag]", some (toString t)⟩ :: r
          | none => ⟨"PUSH", some (Repair.hexOf w)⟩ :: r
    else if isDest s then (destOf d pc).bind fun t => (translateOps d rest (pc + 1)).map fun r => ⟨"tag", some (toString t)⟩ :: ⟨"JUMPDEST", none⟩ :: r
    else (translateOps d rest (pc + 1)).map fun r => ⟨s, none⟩ :: r

/-- `bytecode2asm` (src/solution_generation/bytecode2asm.py:22-75), without the file it writes. -/
def bytecode2asm (ops : List String) : Option (List Item) := (findDests ops 0 0 []).bind fun d => translateOps d ops 0

/-- The regions between the occurrences of `INVALID` (src/solution_generation/bytecode2asm.py:81-82); the text is a list of words here. -/
def regions : List String → List (List String)
  | [] => [[]]
  | s :: rest => if s = "INVALID" then [] :: regions rest else
    match regions rest with
    | r :: rs => (s :: r) :: rs
    | [] => [[s]]

/-- `asm_from_opcodes` (src/solution_generation/bytecode2asm.py:78-95): the code and the code of the data object `0`. `none`: the assertion fails
or a translation does. -/
def asmFromOpcodes (ops : List String) : Option (List Item × List Item) :=
  match regions ops with
  | [a, b] => (bytecode2asm a).bind fun x => (bytecode2asm b).map fun y => (x, y)
  | [a, b, _] => (bytecode2asm a).bind fun x => (bytecode2asm b).map fun y => (x, y)
  | _ => none

/-! ### Specification -/

/-- An EVM instruction. -/
inductive Ins
  | push (n v : Nat)
  | jumpdest
  | op (name : String)
  deriving DecidableEq, Repr

/-- The number of bytes of an instruction. -/
def Ins.size : Ins → Nat
  | .push n _ => n + 1
  | .jumpdest => 1
  | .op _ => 1

/-- The text of an instruction. -/
def Ins.text : Ins → List String
  | .push n v => ["PUSH" ++ toString n, "0x" ++ Repair.hexOf v]
  | .jumpdest => ["JUMPDEST"]
  | .op s => [s]

/-- Pushes have one immediate byte at least; other opcodes are called neither `PUSH..` (except `PUSH0`) nor `JUMPDEST..`. -/
def Ins.Valid : Ins → Prop
  | .push n _ => 1 ≤ n
  | .jumpdest => True
  | .op s => isPush s = false ∧ isDest s = false

/-- The position of the `k`-th instruction. -/
def position (P : List Ins) (k : Nat) : Nat := ((P.take k).map Ins.size).sum

/-- `L` lists the jump destinations: label `t` is the position `L[t]`. -/
def Labels (P : List Ins) (L : List Nat) : Prop :=
  L.Pairwise (· < ·) ∧ ∀ p, p ∈ L ↔ ∃ k, P[k]? = some .jumpdest ∧ position P k = p

/-- `out` is the translation, instruction by instruction, of the program that starts at `pc`. -/
inductive Translates (L : List Nat) : Nat → List Ins → List Item → Prop
  | nil (pc : Nat) : Translates L pc [] []
  | push (pc n v : Nat) (P : List Ins) (out : List Item) : v ∉ L → Translates L (pc + (n + 1)) P out →
      Translates L pc (.push n v :: P) (⟨"PUSH", some (Repair.hexOf v)⟩ :: out)
  | label (pc n v t : Nat) (P : List Ins) (out : List Item) : L[t]? = some v → Translates L (pc + (n + 1)) P out →
      Translates L pc (.push n v :: P) (⟨"PUSH [tag]", some (toString t)⟩ :: out)
  | dest (pc t : Nat) (P : List Ins) (out : List Item) : L[t]? = some pc → Translates L (pc + 1) P out →
      Translates L pc (.jumpdest :: P) (⟨"tag", some (toString t)⟩ :: ⟨"JUMPDEST", none⟩ :: out)
  | op (pc : Nat) (s : String) (P : List Ins) (out : List Item) : Translates L (pc + 1) P out → Translates L pc (.op s :: P) (⟨s, none⟩ :: out)

/-! ### Proofs -/

theorem digits_all (n : Nat) : (Nat.toDigits 10 n).all Char.isDigit = true := by
  rw [all_eq_true]
  intro c hc
  exact Nat.isDigit_of_mem_toDigits (by omega) (by omega) hc

theorem digits_ne (n : Nat) : Nat.toDigits 10 n ≠ [] := Nat.toDigits_ne_nil

theorem pushSize_text (n : Nat) : pushSize ("PUSH" ++ toString n) = some n := by
  have h : ("PUSH" ++ toString n).toList.drop 4 = Nat.toDigits 10 n := by
    simp [String.toList_append, Nat.toString_eq_repr]
  unfold pushSize
  simp only [h]
  rw [if_pos ⟨digits_ne n, digits_all n⟩, Nat.ofDigitChars_ten_toDigits]

theorem isPush_text {n : Nat} (hn : 1 ≤ n) : isPush ("PUSH" ++ toString n) = true := by
  unfold isPush
  rw [Bool.and_eq_true]
  constructor
  · simp [String.toList_append]
  · rw [bne_iff_ne]
    intro h
    have : toString n = toString 0 := by
      have h2 : "PUSH" ++ toString n = "PUSH" ++ toString 0 := h
      have := congrArg String.toList h2
      simp only [String.toList_append] at this
      exact String.toList_inj.1 (append_cancel_left this)
    have := congrArg pushSize (congrArg ("PUSH" ++ ·) this)
    rw [pushSize_text, pushSize_text] at this
    cases this
    omega

theorem hexChar_ok : ∀ d < 16, ((Opcodes.hexChar d).isDigit || decide ('a'.toNat ≤ (Opcodes.hexChar d).toNat ∧ (Opcodes.hexChar d).toNat ≤ 'f'.toNat)) = true := by
  decide

theorem hexDigits_ok (n : Nat) : Opcodes.hexDigits n ≠ [] ∧
    (Opcodes.hexDigits n).all (fun c => c.isDigit || decide ('a'.toNat ≤ c.toNat ∧ c.toNat ≤ 'f'.toNat)) = true := by
  induction n using Nat.strongRecOn with
  | _ n ih =>
    unfold Opcodes.hexDigits
    split
    · rename_i h
      refine ⟨by simp, ?_⟩
      rw [all_cons, hexChar_ok n h]; rfl
    · rename_i h
      refine ⟨by simp, ?_⟩
      rw [all_append, (ih (n / 16) (by omega)).2, all_cons, hexChar_ok (n % 16) (by omega)]; rfl

theorem pushValue_text (v : Nat) : pushValue ("0x" ++ Repair.hexOf v) = some v := by
  have h : hexPart ("0x" ++ Repair.hexOf v) = Opcodes.hexDigits v := by
    have : ("0x" ++ Repair.hexOf v).toList = '0' :: 'x' :: Opcodes.hexDigits v := by
      simp [String.toList_append, Repair.hexOf]
    rw [hexPart, this]; rfl
  unfold pushValue
  simp only [h]
  rw [if_pos (hexDigits_ok v), Repair.hexVal_hexDigits]

/-- The positions of the jump destinations. -/
def destList : Nat → List Ins → List Nat
  | _, [] => []
  | pc, .jumpdest :: P => pc :: destList (pc + 1) P
  | pc, .push n _ :: P => destList (pc + n + 1) P
  | pc, .op _ :: P => destList (pc + 1) P

theorem findDests_text : ∀ (P : List Ins) (pc tag : Nat) (d : List (Nat × Nat)), (∀ i ∈ P, i.Valid) →
    findDests (P.flatMap Ins.text) pc tag d = some (((destList pc P).zipIdx tag).reverse ++ d) := by
  intro P
  induction P with
  | nil => intro pc tag d _; simp [findDests, destList]
  | cons i P ih =>
    intro pc tag d hv
    have hi := hv i mem_cons_self
    have ih' := fun pc tag d => ih pc tag d fun j hj => hv j (mem_cons_of_mem _ hj)
    cases i with
    | push n v =>
      simp only [flatMap_cons, Ins.text, cons_append, nil_append]
      rw [findDests, if_pos (isPush_text hi)]
      simp only [pushSize_text, Option.bind_some, destList]
      exact ih' _ _ _
    | jumpdest =>
      simp only [flatMap_cons, Ins.text, cons_append, nil_append]
      rw [findDests.eq_def]; dsimp only; rw [if_neg (by decide), if_pos (by decide), ih']
      simp [destList, zipIdx_cons]
    | op s =>
      simp only [flatMap_cons, Ins.text, cons_append, nil_append]
      rw [findDests.eq_def]; dsimp only; rw [if_neg (by rw [hi.1]; decide), if_neg (by rw [hi.2]; decide), ih']
      simp [destList]

theorem destList_ge : ∀ (P : List Ins) (pc p : Nat), p ∈ destList pc P → pc ≤ p := by
  intro P
  induction P with
  | nil => simp [destList]
  | cons i P ih =>
    intro pc p h
    cases i with
    | push n v => rw [destList] at h; have := ih _ _ h; omega
    | jumpdest =>
      rw [destList, mem_cons] at h
      rcases h with rfl | h
      · exact Nat.le_refl _
      · have := ih _ _ h; omega
    | op s => rw [destList] at h; have := ih _ _ h; omega

theorem destList_sorted : ∀ (P : List Ins) (pc : Nat), (destList pc P).Pairwise (· < ·) := by
  intro P
  induction P with
  | nil => simp [destList]
  | cons i P ih =>
    intro pc
    cases i with
    | push n v => exact ih _
    | jumpdest =>
      rw [destList, pairwise_cons]
      exact ⟨fun p hp => by have := destList_ge _ _ _ hp; omega, ih _⟩
    | op s => exact ih _

theorem position_cons (i : Ins) (P : List Ins) (k : Nat) : position (i :: P) (k + 1) = i.size + position P k := by
  simp [position]

theorem mem_destList : ∀ (P : List Ins) (pc p : Nat), p ∈ destList pc P ↔ ∃ k, P[k]? = some .jumpdest ∧ pc + position P k = p := by
  intro P
  induction P with
  | nil => simp [destList]
  | cons i P ih =>
    intro pc p
    have shift : (∃ k, (i :: P)[k]? = some Ins.jumpdest ∧ pc + position (i :: P) k = p) ↔
        (i = .jumpdest ∧ pc = p) ∨ ∃ k, P[k]? = some .jumpdest ∧ pc + i.size + position P k = p := by
      constructor
      · rintro ⟨k, h1, h2⟩
        cases k with
        | zero => left; simp at h1; exact ⟨h1, by simpa [position] using h2⟩
        | succ k => right; rw [position_cons] at h2; exact ⟨k, by simpa using h1, by omega⟩
      · rintro (⟨rfl, rfl⟩ | ⟨k, h1, h2⟩)
        · exact ⟨0, by simp, by simp [position]⟩
        · exact ⟨k + 1, by simpa using h1, by rw [position_cons]; omega⟩
    rw [shift]
    cases i with
    | push n v => simp only [destList, Ins.size, reduceCtorEq, false_and, false_or]; rw [ih]; rfl
    | jumpdest => simp only [destList, Ins.size, mem_cons, true_and]; rw [ih]; exact or_congr_left eq_comm
    | op s => simp only [destList, Ins.size, reduceCtorEq, false_and, false_or]; rw [ih]

theorem destOf_zipIdx {L : List Nat} (hL : L.Pairwise (· < ·)) (pc : Nat) :
    (∀ t, destOf (L.zipIdx 0).reverse pc = some t → L[t]? = some pc) ∧ (destOf (L.zipIdx 0).reverse pc = none → pc ∉ L) := by
  unfold destOf
  constructor
  · intro t h
    obtain ⟨q, hq, rfl⟩ := Option.map_eq_some_iff.1 h
    have h1 := mem_of_find?_eq_some hq
    have h2 := find?_some hq
    rw [mem_reverse] at h1
    obtain ⟨a, b⟩ := q
    have := (mem_zipIdx_iff_getElem? (x := (a, b)) (l := L)).1 h1
    simp only [decide_eq_true_eq] at h2
    rw [← h2]
    exact this
  · intro h hm
    rw [Option.map_eq_none_iff, find?_eq_none] at h
    obtain ⟨t, ht⟩ := mem_iff_getElem?.1 hm
    exact h (pc, t) (by rw [mem_reverse]; exact (mem_zipIdx_iff_getElem? (x := (pc, t)) (l := L)).2 ht) (by simp)

theorem translate_text {L : List Nat} (hL : L.Pairwise (· < ·)) : ∀ (P : List Ins) (pc : Nat), (∀ i ∈ P, i.Valid) →
    (∀ p ∈ destList pc P, p ∈ L) →
    ∃ out, translateOps (L.zipIdx 0).reverse (P.flatMap Ins.text) pc = some out ∧ Translates L pc P out := by
  intro P
  induction P with
  | nil => intro pc _ _; exact ⟨[], by simp [translateOps], .nil pc⟩
  | cons i P ih =>
    intro pc hv hd
    have hi := hv i mem_cons_self
    have ih' := fun pc h => ih pc (fun j hj => hv j (mem_cons_of_mem _ hj)) h
    cases i with
    | push n v =>
      obtain ⟨out, h1, h2⟩ := ih' (pc + n + 1) (by intro p hp; exact hd p (by rw [destList]; exact hp))
      simp only [flatMap_cons, Ins.text, cons_append, nil_append]
      rw [translateOps, if_pos (isPush_text hi)]
      simp only [pushSize_text, pushValue_text, Option.bind_some, h1, Option.map_some]
      obtain ⟨g1, g2⟩ := destOf_zipIdx hL v
      cases hdv : destOf (L.zipIdx 0).reverse v with
      | some t => exact ⟨_, rfl, .label pc n v t P out (g1 t hdv) h2⟩
      | none => exact ⟨_, rfl, .push pc n v P out (g2 hdv) h2⟩
    | jumpdest =>
      obtain ⟨out, h1, h2⟩ := ih' (pc + 1) (by intro p hp; exact hd p (by rw [destList]; exact mem_cons_of_mem _ hp))
      simp only [flatMap_cons, Ins.text, cons_append, nil_append]
      rw [translateOps.eq_def]; dsimp only; rw [if_neg (by decide), if_pos (by decide)]
      obtain ⟨g1, g2⟩ := destOf_zipIdx hL pc
      cases hdv : destOf (L.zipIdx 0).reverse pc with
      | some t =>
        simp only [Option.bind_some, h1, Option.map_some]
        exact ⟨_, rfl, .dest pc t P out (g1 t hdv) h2⟩
      | none => exact absurd (hd pc (by rw [destList]; exact mem_cons_self)) (g2 hdv)
    | op s =>
      obtain ⟨out, h1, h2⟩ := ih' (pc + 1) (by intro p hp; exact hd p (by rw [destList]; exact hp))
      simp only [flatMap_cons, Ins.text, cons_append, nil_append]
      rw [translateOps.eq_def]; dsimp only; rw [if_neg (by rw [hi.1]; decide), if_neg (by rw [hi.2]; decide), h1]
      exact ⟨_, rfl, .op pc s P out h2⟩

/-- **C34.** Every sequence of EVM instructions is translated to assembly, instruction by instruction and in order. The labels number the jump
destinations in the order of their positions; each jump destination is preceded by its label; a push becomes the push of a label exactly when the pushed
value is the position of a jump destination, and then of the label of that position; all other instructions are kept with their values. -/
theorem disassembly_exact (P : List Ins) (hP : ∀ i ∈ P, i.Valid) :
    ∃ L out, Labels P L ∧ bytecode2asm (P.flatMap Ins.text) = some out ∧ Translates L 0 P out := by
  have hs := destList_sorted P 0
  obtain ⟨out, h1, h2⟩ := translate_text hs P 0 hP fun p hp => hp
  refine ⟨destList 0 P, out, ⟨hs, fun p => by rw [mem_destList]; simp⟩, ?_, h2⟩
  unfold bytecode2asm
  rw [findDests_text P 0 0 [] hP, append_nil, Option.bind_some]
  exact h1

theorem regions_append : ∀ (a b : List String), "INVALID" ∉ a → regions (a ++ "INVALID" :: b) = a :: regions b := by
  intro a
  induction a with
  | nil => intro b _; simp [regions]
  | cons s a ih =>
    intro b h
    rw [cons_append, regions, if_neg (fun e => h (by simp [e])), ih b (fun hm => h (mem_cons_of_mem _ hm))]

theorem regions_none : ∀ (a : List String), "INVALID" ∉ a → regions a = [a] := by
  intro a
  induction a with
  | nil => intro _; rfl
  | cons s a ih =>
    intro h
    rw [regions, if_neg (fun e => h (by simp [e])), ih (fun hm => h (mem_cons_of_mem _ hm))]

/-- **C34.** Creation code and runtime code, separated by the only `INVALID`, or followed by another one and data, are translated separately. -/
theorem disassembly_regions (P Q : List Ins) (hP : ∀ i ∈ P, i.Valid) (hQ : ∀ i ∈ Q, i.Valid) (hp : "INVALID" ∉ P.flatMap Ins.text)
    (hq : "INVALID" ∉ Q.flatMap Ins.text) (data : Option (List String)) (hdata : ∀ d, data = some d → "INVALID" ∉ d) :
    ∃ L L' out out', Labels P L ∧ Labels Q L' ∧ Translates L 0 P out ∧ Translates L' 0 Q out' ∧
      asmFromOpcodes (P.flatMap Ins.text ++ "INVALID" :: (Q.flatMap Ins.text ++ (data.map fun d => "INVALID" :: d).getD [])) = some (out, out') := by
  obtain ⟨L, out, h1, h2, h3⟩ := disassembly_exact P hP
  obtain ⟨L', out', g1, g2, g3⟩ := disassembly_exact Q hQ
  refine ⟨L, L', out, out', h1, g1, h3, g3, ?_⟩
  unfold asmFromOpcodes
  rw [regions_append _ _ hp]
  cases data with
  | none =>
    simp only [Option.map_none, Option.getD_none, append_nil]
    rw [regions_none _ hq]
    simp [h2, g2]
  | some d =>
    simp only [Option.map_some, Option.getD_some]
    rw [regions_append _ _ hq, regions_none _ (hdata d rfl)]
    simp [h2, g2]

/-! ### The theorems apply -/

def exProgram : List Ins := [.push 1 6, .op "DUP1", .op "JUMPI", .op "STOP", .op "PUSH0", .jumpdest, .push 2 6, .push 1 255, .jumpdest]

example : (∀ i ∈ exProgram, i.Valid) := by
  intro i hi
  simp only [exProgram, mem_cons, not_mem_nil, or_false] at hi
  rcases hi with rfl | rfl | rfl | rfl | rfl | rfl | rfl | rfl | rfl <;> simp [Ins.Valid] <;> decide
example : bytecode2asm (exProgram.flatMap Ins.text) = some [⟨"PUSH [tag]", some "0"⟩, ⟨"DUP1", none⟩, ⟨"JUMPI", none⟩, ⟨"STOP", none⟩, ⟨"PUSH0", none⟩,
    ⟨"tag", some "0"⟩, ⟨"JUMPDEST", none⟩, ⟨"PUSH [tag]", some "0"⟩, ⟨"PUSH", some "ff"⟩, ⟨"tag", some "1"⟩, ⟨"JUMPDEST", none⟩] := by decide +kernel

/-- A constant that happens to be the position of a jump destination becomes a label: moving the code changes its value. -/
theorem constant_becomes_label : bytecode2asm ["PUSH1", "0x3", "ADD", "JUMPDEST"] =
    some [⟨"PUSH [tag]", some "0"⟩, ⟨"ADD", none⟩, ⟨"tag", some "0"⟩, ⟨"JUMPDEST", none⟩] := by decide +kernel

/-- Runtime code that contains an `INVALID` of its own is cut there, silently. -/
theorem runtime_code_cut : asmFromOpcodes ["STOP", "INVALID", "CALLER", "INVALID", "JUMPDEST", "STOP"] = some ([⟨"STOP", none⟩], [⟨"CALLER", none⟩]) := by
  decide +kernel

end Grey.Output
