/-
C68: the program of C53, with its variables in memory, meets the hypotheses.
-/
import Verif.Stored.Theorems
import Verif.Program.FlatExample
namespace Grey.Stored
open List Grey.Layout Grey.Sfs Grey.SymExec Grey.Program Grey.Repair Grey.Output

/-! ### A memory of bytes -/

/-- The first `n` bytes of a word, as a number. -/
theorem bytes_fold (w : Loc → Nat) (p x : Nat) (hx : x < 2 ^ 256) (n : Nat) (hn : n ≤ 32) :
    (List.range n).foldl (fun m j => m * 256 + memStore w p x (.mem (p + j))) 0 = x / 256 ^ (32 - n) := by
  induction n with
  | zero => rw [Nat.div_eq_of_lt (by simpa using hx)]; rfl
  | succ n ih =>
    rw [range_succ, foldl_append, ih (by omega)]
    have h1 : p ≤ p + n ∧ p + n < p + 32 := ⟨by omega, by omega⟩
    simp only [foldl_cons, foldl_nil, memStore]
    rw [if_pos h1, Nat.add_sub_cancel_left]
    unfold byteOf
    have e1 : 31 - n = 32 - (n + 1) := by omega
    have e2 : 32 - n = 32 - (n + 1) + 1 := by omega
    rw [e1, e2, Nat.pow_succ, ← Nat.div_div_eq_div_mul]
    have := Nat.div_add_mod (x / 256 ^ (32 - (n + 1))) 256
    omega

/-- The fragment of the EVM has the memory that is assumed. -/
theorem evm_memory (tag : Option (List String) → Nat) : MemoryOk (evmTag tag) exArity where
  loadArity := rfl
  storeArity := rfl
  loadWorld := by intro a w; simp [evmTag, evm]
  loadLocal := by
    intro a w w' h
    have : memLoad w a = memLoad w' a := by
      unfold memLoad
      have hall : ∀ n ≤ 32, (List.range n).foldl (fun m j => m * 256 + w (.mem (a + j))) 0 =
          (List.range n).foldl (fun m j => m * 256 + w' (.mem (a + j))) 0 := by
        intro n
        induction n with
        | zero => intro _; rfl
        | succ n ih =>
          intro hn
          rw [range_succ, foldl_append, foldl_append, ih (by omega)]
          simp only [foldl_cons, foldl_nil]
          rw [h (.mem (a + n)) ⟨a + n, rfl, by omega, by omega⟩]
      exact hall 32 (by omega)
    simp [evmTag, evm, this]
  storeResult := by intro a x w; simp [evmTag, evm]
  storeLocal := by
    intro a x w l hl
    simp only [evmTag, evm]
    simp only [show ("MSTORE" = "PUSH [TAG]") = False by simp, show ("MSTORE" = "ADD") = False by simp, if_false, if_true]
    cases l with
    | mem k =>
      simp only [memStore]
      rw [if_neg fun hk => hl ⟨k, rfl, hk.1, hk.2⟩]
    | _ => rfl
  loadStore := by
    intro a x w hx
    have : memLoad (memStore w a x) a = x := by
      have := bytes_fold w a x hx 32 (by omega)
      simpa [memLoad] using this
    simp [Holds, evmTag, evm, this]

/-! ### The program -/

/-- `v` is stored at 192 and is there over the call, `r` at 128, the phi function `p` and its argument `q` at 160, where the value of
`r` is copied at the end of `M1`. -/
def exCell (v : String) : Option Nat :=
  if v = "v" then some 192 else if v = "r" then some 128 else if v = "p" ∨ v = "q" then some 160 else none

/-- The ids of the blocks, with loads and stores. -/
def exPids (_ b : String) : List PId :=
  if b = "Block0" then [.id "PUSH [TAG]_1", .id "PUSH0_0", .id "SLOAD_0", .dupSet "v" 0, .id "PUSH [TAG]_0"]
  else if b = "M1" then [.dupSet "r" 0, .id "VGET(v)", .id "POP", .id "VGET(r)", .id "DUP1", .id "PUSH_0", .id "SSTORE_0", .id "PUSH [TAG]_0"]
  else if b = "M3" then [.id "POP", .id "VGET(r)", .id "PUSH_0", .id "ADD_0", .dupSet "q" 0, .id "PUSH [TAG]_0"]
  else if b = "M2" then [.id "VGET(p)", .id "PUSH_0", .id "SSTORE_0"]
  else if b = "g_Block0" then [.id "PUSH_0", .id "ADD_0", .id "SWAP1"]
  else []

def exRegs (_ b : String) : List (String × (Nat × Nat)) := if b = "M1" then [("r", (160, 128))] else []

def exWritten : Written where
  pids := exPids
  regs := exRegs
  dups := fun _ _ => []
  ops := fun f b => (emitBlock exCell (exPids f b) (exRegs f b) []).getD []

def exPlaces : Places where
  before := fun f b => if f = "main" then if b = "M1" then [("v", 192)] else if b = "M3" then [("r", 128)] else if b = "M2" then [("p", 160)] else []
    else []
  after := fun f b => if f = "main" then if b = "Block0" then [("v", 192)] else if b = "M1" then [("r", 128), ("r", 160)]
      else if b = "M3" then [("q", 160)] else [] else []
  writes := fun f => if f = "main" then [128, 160, 192] else []
  cell := fun a => a ∈ [128, 160, 192]

/-- The decidable part of the hypotheses about a block. -/
def OkStored (cell : String → Option Nat) (L : Places) (W : Written) (f b : String) (instrs : List Ins) (split : Option Ins) (src tgt : List String) (junk : Bool) : Prop :=
  OkBlock instrs (substDuplicates src) ∧ (∀ v ∈ beforeSplit split tgt, v.toList.head? ≠ some 's') ∧
  emitBlock cell (W.pids f b) (W.regs f b) (W.dups f b) = some (W.ops f b) ∧
  (match buildSpec instrs split [] (substDuplicates src) tgt with
    | some p => check ⟨p.1.entries.map (·.instr), p.1.src, p.1.tgt, p.2⟩ (originals (W.pids f b)) junk = true ∧ p.1.unused = [] ∧
      match flow (p.1.entries.map (·.instr)) (W.ops f b) (p.1.src, unassigned instrs (L.before f b)) with
      | some q => ∀ x ∈ L.after f b, x ∈ q.2 ∧ OkName x.1
      | none => False
    | none => False) ∧
  (∀ a ∈ instrs, a.op ∈ ["sload", "sstore", "tload", "tstore"] → ∀ u ∈ a.inArgs.take 1, ∀ b ∈ instrs, u ∉ b.outArgs) ∧
  (∀ o ∈ W.ops f b, match o with
    | .store v a => a ∈ L.writes f ∧ OkName v
    | .id s => match classify s with
      | some (.dup n) => n ≤ 16 ∧ s = "DUP" ++ toString n
      | some (.swap n) => 0 < n ∧ n ≤ 16 ∧ s = "SWAP" ++ toString n
      | _ => True
    | _ => True) ∧
  ∀ s ∈ originals (W.pids f b), match classify s with
    | some (.get v) => vgetOf s = some v ∧ vsetOf s = none
    | some (.set v) => vsetOf s = some v ∧ vgetOf s = none
    | _ => vgetOf s = none ∧ vsetOf s = none

instance (cell : String → Option Nat) (L : Places) (W : Written) (f b : String) (instrs : List Ins) (split : Option Ins) (src tgt : List String) (junk : Bool) :
    Decidable (OkStored cell L W f b instrs split src tgt junk) := by
  unfold OkStored
  have : ∀ (r : Option (List String × Facts)), Decidable (match r with
      | some q => ∀ x ∈ L.after f b, x ∈ q.2 ∧ OkName x.1
      | none => False) := by intro r; cases r <;> simp only <;> infer_instance
  have : Decidable (match buildSpec instrs split [] (substDuplicates src) tgt with
    | some p => check ⟨p.1.entries.map (·.instr), p.1.src, p.1.tgt, p.2⟩ (originals (W.pids f b)) junk = true ∧ p.1.unused = [] ∧
      match flow (p.1.entries.map (·.instr)) (W.ops f b) (p.1.src, unassigned instrs (L.before f b)) with
      | some q => ∀ x ∈ L.after f b, x ∈ q.2 ∧ OkName x.1
      | none => False
    | none => False) := by split <;> infer_instance
  have : ∀ o : SOp, Decidable (match o with
    | .store v a => a ∈ L.writes f ∧ OkName v
    | .id s => match classify s with
      | some (.dup n) => n ≤ 16 ∧ s = "DUP" ++ toString n
      | some (.swap n) => 0 < n ∧ n ≤ 16 ∧ s = "SWAP" ++ toString n
      | _ => True
    | _ => True) := by intro o; cases o <;> simp only <;> first | infer_instance | (split <;> infer_instance)
  have : ∀ s, Decidable (match classify s with
    | some (.get v) => vgetOf s = some v ∧ vsetOf s = none
    | some (.set v) => vsetOf s = some v ∧ vgetOf s = none
    | _ => vgetOf s = none ∧ vsetOf s = none) := by intro s; split <;> infer_instance
  infer_instance

theorem okStored {tag : Option (List String) → Nat} {cell : String → Option Nat} {L : Places} {W : Written} {f b : String} {instrs : List Ins} {split : Option Ins} {src tgt : List String} {junk : Bool}
    (h : OkStored cell L W f b instrs split src tgt junk) :
    BlockStored (evmTag tag) L f b instrs split src tgt junk (W.pids f b) (W.regs f b) (W.dups f b) (W.ops f b) := by
  obtain ⟨h1, h2, h3, h4, h5, h6, h7⟩ := h
  have hfrag : ∀ i ∈ instrs, Fragment i := fun i hi => (h1.1 i hi).1
  refine ⟨okBlock h1, fragment_interp hfrag, fragment_local hfrag, fun v hv => not_generated (h2 v hv), ⟨cell, h3⟩, ?_, ?_, ?_, ?_, ?_⟩
  · split at h4
    · rename_i p hp
      obtain ⟨h8, h9, h10⟩ := h4
      split at h10
      · rename_i q hq
        refine ⟨p.1, p.2, hp, h8, fun env w => ?_, q.1, q.2, hq, fun x hx => ⟨(h10 x hx).1, ?_, (okName (h10 x hx).2).2⟩⟩
        · rw [h9]
          exact okAnalysable h1 h5 _
        · exact (okName (h10 x hx).2).1.1
      · exact h10.elim
    · exact h4.elim
  · intro v a hs
    have := h6 _ hs
    exact ⟨this.1, (okName this.2).1.1, (okName this.2).2⟩
  · intro s hs n e
    have := h6 _ hs
    simp only [e] at this
    exact this
  · intro s hs n e
    have := h6 _ hs
    simp only [e] at this
    exact this
  · intro s hs
    have := h7 s hs
    cases hc : classify s with
    | none => rw [hc] at this; simp [this.1, this.2]
    | some o => cases o <;> rw [hc] at this <;> simp [this.1, this.2]

theorem stored_of {f : String} {F : Fn} (hp : Placeable F.graph) (hd : (drive F.graph).toOption.isSome = true)
    (h : ∀ p ∈ specsOf F.graph, OkStored exCell exPlaces exWritten f p.1 (F.instrs p.1) (F.split p.1) p.2.1 p.2.2 (F.graph.canJunk p.1) ∧
      (substDuplicates p.2.1).Nodup ∧ ∀ v ∈ ((F.split p.1).map (·.outArgs)).getD [], v ∉ p.2.1)
    (hf : OkFlat exProg exTags (fun _ => ["POP"]) F) (hne : ∀ B ∈ F.graph.blocks, exWritten.sched f B.id ≠ []) :
    ∃ st, StoredFn exProg evmT exPlaces exWritten exArity exTags f F st := by
  cases hc : drive F.graph with
  | error e => rw [hc] at hd; simp [Except.toOption] at hd
  | ok st =>
    have hfl := okFlat hp hf
    refine ⟨st, hc, fun B hB src tgt hs => ?_, hp, hfl.ends, hfl.writable, fun B hB _ => Or.inr (hne B hB), fun B hB _ e => absurd e (hne B hB)⟩
    have hm : (B.id, src, tgt) ∈ specsOf F.graph := by unfold specsOf; rw [hc]; exact hs
    obtain ⟨h1, h2, h3⟩ := h _ hm
    exact ⟨okStored h1, h2, h3⟩

theorem ex_stored : ∀ f F, exProg.fns f = some F → ∃ st, StoredFn exProg evmT exPlaces exWritten exArity exTags f F st := by
  intro f F hF
  rcases exProg_fns hF with ⟨rfl, rfl⟩ | ⟨rfl, rfl⟩
  · exact stored_of exMain_place (by decide +kernel) (by decide +kernel) (by decide +kernel) (by decide +kernel)
  · exact stored_of exG_place (by decide +kernel) (by decide +kernel) (by decide +kernel) (by decide +kernel)

theorem ex_places : PlacesOk exProg exPlaces where
  apart := by
    intro a b ha hb hne
    have ha : a ∈ [128, 160, 192] := ha
    have hb : b ∈ [128, 160, 192] := hb
    simp only [mem_cons, not_mem_nil, or_false] at ha hb
    unfold NoOverlap
    omega
  known := by
    intro f b p hp
    have hall : p ∈ [("v", 192), ("r", 128), ("p", 160)] := by
      simp only [exPlaces] at hp
      repeat' split at hp
      all_goals simp at hp
      all_goals subst hp; simp
    have : ∀ p ∈ [("v", 192), ("r", 128), ("p", 160)], p.2 ∈ [128, 160, 192] ∧ OkName p.1 := by decide
    exact ⟨(this p hall).1, okName (this p hall).2⟩
  written := by
    intro f a ha
    simp only [exPlaces] at ha ⊢
    split at ha
    · exact ha
    · simp at ha
  start := by
    intro f F hF
    rcases exProg_fns hF with ⟨rfl, rfl⟩ | ⟨rfl, rfl⟩ <;> rfl
  calls := by
    intro f F hF B hB g hg a ha
    rcases exProg_fns hF with ⟨rfl, rfl⟩ | ⟨rfl, rfl⟩
    · simp only [exPlaces] at ha ⊢
      split at ha
      · exact ha
      · simp at ha
    · have : ∀ B ∈ exG.graph.blocks, exProg.exit exG B = .ret := by decide +kernel
      rw [this B hB] at hg
      simp at hg
  edges := by
    intro f F hF
    rcases exProg_fns hF with ⟨rfl, rfl⟩ | ⟨rfl, rfl⟩ <;> decide +kernel
  over := by
    intro f F hF B hB g hg S hS hd p hp
    rcases exProg_fns hF with ⟨rfl, rfl⟩ | ⟨rfl, rfl⟩
    · have : ∀ B ∈ exMain.graph.blocks, exProg.exit exMain B = .call "g" ∨ exProg.exit exMain B = .branch ∨
          exProg.exit exMain B = .jump ∨ exProg.exit exMain B = .halt := by decide +kernel
      have hgg : g = "g" := by
        rcases this B hB with e | e | e | e <;> rw [e] at hg <;> simp at hg
        exact hg.symm
      subst hgg
      have : ∀ B ∈ exMain.graph.blocks, exProg.exit exMain B = .call "g" → ∀ S ∈ exMain.graph.blocks, S.id ∈ B.succs →
          ∀ p ∈ exPlaces.before "main" S.id, sourceOf S (S.preds.idxOf B.id) p.1 ∉ exMain.exitOuts B ∧ p.2 ∉ exPlaces.writes "g" := by decide +kernel
      exact this B hB hg S hS hd p hp
    · have : ∀ B ∈ exG.graph.blocks, exProg.exit exG B = .ret := by decide +kernel
      rw [this B hB] at hg
      simp at hg

/-- The assembly: the variables are written to memory and read again. -/
theorem ex_stored_code : (assemble exProg ["g"] exTags exWritten.sched 4).map (·.map fun a => (a.name, a.value)) = some
    [("PUSH [tag]", some "2"), ("PUSH", some "0"), ("SLOAD", none), ("DUP1", none), ("PUSH", some "C0"), ("MSTORE", none),
    ("PUSH [tag]", some "1"), ("JUMP", none), ("tag", some "2"), ("JUMPDEST", none), ("DUP1", none),
    ("PUSH", some "80"), ("MSTORE", none), ("PUSH", some "C0"), ("MLOAD", none), ("POP", none), ("PUSH", some "80"),
    ("MLOAD", none), ("DUP1", none), ("PUSH", some "1"), ("SSTORE", none), ("PUSH [tag]", some "3"),
    ("PUSH", some "80"), ("MLOAD", none), ("PUSH", some "A0"), ("MSTORE", none), ("JUMPI", none), ("tag", some "4"),
    ("JUMPDEST", none), ("PUSH", some "A0"), ("MLOAD", none), ("PUSH", some "3"), ("SSTORE", none), ("STOP", none),
    ("tag", some "3"), ("JUMPDEST", none), ("POP", none), ("PUSH", some "80"), ("MLOAD", none), ("PUSH", some "5"),
    ("ADD", none), ("DUP1", none), ("PUSH", some "A0"), ("MSTORE", none), ("PUSH [tag]", some "4"), ("JUMP", none),
    ("tag", some "1"), ("JUMPDEST", none), ("PUSH", some "1"), ("ADD", none), ("SWAP1", none), ("JUMP", none)] := by
  decide +kernel

/-- The configurations that a run meets, when the next ones are known. -/
theorem runs_next {P : Prog} {I : Interp Nat (Loc → Nat)} {c c1 c2 : Config Nat (Loc → Nat)} {tr : List (String × String × (Loc → Nat))}
    (hs : step P I c = some (.inl c1)) (h : Runs P I c tr (.inl c2)) : c2 = c ∨ ∃ tr', Runs P I c1 tr' (.inl c2) := by
  cases h with
  | nil => exact Or.inl rfl
  | cons hs' hr =>
    rw [hs, Option.some.injEq, Sum.inl.injEq] at hs'
    subst hs'
    exact Or.inr ⟨_, hr⟩

theorem runs_last {P : Prog} {I : Interp Nat (Loc → Nat)} {c c2 : Config Nat (Loc → Nat)} {x : Halted Nat (Loc → Nat)}
    {tr : List (String × String × (Loc → Nat))} (hs : step P I c = some (.inr x)) (h : Runs P I c tr (.inl c2)) : c2 = c := by
  cases h with
  | nil => rfl
  | cons hs' hr => rw [hs] at hs'; simp at hs'

/-- The program does not use memory, so it keeps away from the cells if the values that are stored have 256 bits. -/
theorem keeps_away_of {f b : String} {env : String → Nat} {frames : List (Frame Nat)} {w : Loc → Nat} {F : Fn} {B : LBlock} (hF : exProg.fns f = some F)
    (hB : F.graph.block b = some B) (hid : B.id = b)
    (h : ∀ v a, SOp.store v a ∈ exWritten.ops f b → evmT.read (blockRun evmT (F.instrs b) env w).1 v < 2 ^ 256) :
    KeepsAway exProg evmT exPlaces exWritten ⟨f, b, env, frames, w⟩ := by
  intro F' B' hF' hB'
  simp only at hF' hB'
  rw [hF, Option.some.injEq] at hF'
  subst hF'
  rw [hB, Option.some.injEq] at hB'
  subst hB'
  simp only [hid]
  refine ⟨?_, h⟩
  intro i hi a ha l hl
  have hops : i.op ∈ ["sload", "sstore", "add", "PUSH [tag]"] := by
    have hfr : ∀ B ∈ F.graph.blocks, ∀ i ∈ F.instrs B.id, Fragment i := by
      rcases exProg_fns hF with ⟨rfl, rfl⟩ | ⟨rfl, rfl⟩ <;> decide +kernel
    have hmem : B ∈ F.graph.blocks := mem_of_find?_eq_some hB
    obtain ⟨_, h⟩ := hfr B hmem i (by rw [hid]; exact hi)
    rcases h with ⟨e, _⟩ | ⟨e, _⟩ | ⟨e, _⟩ | ⟨e, _⟩ <;> rw [e] <;> simp
  obtain ⟨k, rfl, _⟩ := hl
  simp only [MayRead, MayWrite]
  generalize i.inArgs.map _ = args
  simp only [mem_cons, not_mem_nil, or_false] at hops
  rcases hops with e | e | e | e <;> rw [e] <;> constructor <;> intro hh <;> revert hh <;> simp [Deps.Reads, Deps.Writes]

theorem ex_keeps (env : String → Nat) (w : Loc → Nat) (h : (w (.sto 0) + 1) % 2 ^ 256 ≠ 0) (hw : w (.sto 0) < 2 ^ 256)
    {tr : List (String × String × (Loc → Nat))} {c : Config Nat (Loc → Nat)} (hr : Runs exProg evmT ⟨"main", "Block0", env, [], w⟩ tr (.inl c)) :
    KeepsAway exProg evmT exPlaces exWritten c := by
  obtain ⟨env1, env2, s0, h0⟩ := exM0 env w
  obtain ⟨env3, s1, h1⟩ := exG0 env1 env2 w
  rw [h0] at h1
  obtain ⟨env4, s2, h2⟩ := exM1 env3 w (by rw [h1]; exact h)
  obtain ⟨env5, s3, h3⟩ := exM3 env4 (stoStore w 1 (env3 "r"))
  have s4 := exM2 env5 (stoStore w 1 (env3 "r"))
  have hlt : ∀ x : Nat, x % 2 ^ 256 < 2 ^ 256 := fun x => Nat.mod_lt _ (by decide)
  rcases runs_next s0 hr with rfl | ⟨_, hr⟩
  · refine keeps_away_of (F := exMain) rfl rfl rfl ?_
    intro v a hs
    have hall : v = "v" := by
      have : (exWritten.ops "main" "Block0").all (fun | .store v _ => v == "v" | _ => true) = true := by decide +kernel
      simpa using all_eq_true.1 this _ hs
    subst hall
    have hi : exMain.instrs "Block0" = [⟨"sload", ["0x00"], ["v"], none⟩, ⟨"PUSH [tag]", [], ["1"], none⟩, ⟨"PUSH [tag]", [], ["2"], none⟩] := by
      decide +kernel
    simp only [hi, blockRun, ex_sload, ex_tag, ex_const (c := "0x00") (n := 0) (by decide) (by decide +kernel), ex_var (x := "v") (by decide)]
    simpa [assign] using hw
  rcases runs_next s1 hr with rfl | ⟨_, hr⟩
  · refine keeps_away_of (F := exG) rfl rfl rfl ?_
    intro v a hs
    have : (exWritten.ops "g" "g_Block0").all (fun | .store _ _ => false | _ => true) = true := by decide +kernel
    simpa using all_eq_true.1 this _ hs
  rcases runs_next s2 hr with rfl | ⟨_, hr⟩
  · refine keeps_away_of (F := exMain) rfl rfl rfl ?_
    intro v a hs
    have hall : v = "r" := by
      have : (exWritten.ops "main" "M1").all (fun | .store v _ => v == "r" | _ => true) = true := by decide +kernel
      simpa using all_eq_true.1 this _ hs
    subst hall
    have hi : exMain.instrs "M1" = [⟨"sstore", ["0x01", "r"], [], none⟩, ⟨"PUSH [tag]", [], ["3"], none⟩] := by decide +kernel
    simp only [hi, blockRun, ex_sstore, ex_tag, ex_const (c := "0x01") (n := 1) (by decide) (by decide +kernel), ex_var (x := "r") (by decide)]
    simp only [assign]
    simp only [show ("r" = "3") = False by simp, if_false]
    rw [h1]
    exact hlt _
  rcases runs_next s3 hr with rfl | ⟨_, hr⟩
  · refine keeps_away_of (F := exMain) rfl rfl rfl ?_
    intro v a hs
    have hall : v = "q" := by
      have : (exWritten.ops "main" "M3").all (fun | .store v _ => v == "q" | _ => true) = true := by decide +kernel
      simpa using all_eq_true.1 this _ hs
    subst hall
    have hi : exMain.instrs "M3" = [⟨"add", ["r", "0x05"], ["q"], none⟩, ⟨"PUSH [tag]", [], ["4"], none⟩] := by decide +kernel
    simp only [hi, blockRun, ex_add, ex_tag, ex_const (c := "0x05") (n := 5) (by decide) (by decide +kernel), ex_var (x := "q") (by decide)]
    simp only [assign]
    simp only [show ("q" = "4") = False by simp, if_false, if_true]
    exact hlt _
  · obtain rfl := runs_last s4 hr
    refine keeps_away_of (F := exMain) rfl rfl rfl ?_
    intro v a hs
    have : (exWritten.ops "main" "M2").all (fun | .store _ _ => false | _ => true) = true := by decide +kernel
    simpa using all_eq_true.1 this _ hs

theorem ex_fuel : ∀ f F, exProg.fns f = some F → F.graph.blocks.length ≤ 4 := by
  intro f F hF
  rcases exProg_fns hF with ⟨rfl, rfl⟩ | ⟨rfl, rfl⟩ <;> decide

/-- The hypotheses of C68 are met: the assembly that keeps `v`, `r`, `q` and `p` in memory stops, whatever memory contains at first,
with the expected values in storage. -/
example (w w' : Loc → Nat) (below : List Nat) (h : (w (.sto 0) + 1) % 2 ^ 256 ≠ 0) (hw : w (.sto 0) < 2 ^ 256)
    (hsame : ∀ l, (∀ a ∈ [128, 160, 192], ¬ InCell a l) → w' l = w l) :
    ∃ code n w2, assemble exProg ["g"] exTags exWritten.sched 4 = some code ∧
      FRuns code evmT exArity ⟨0, below, w'⟩ n (.inr ⟨"STOP", [], w2⟩) ∧
      w2 (.sto 1) = (w (.sto 0) + 1) % 2 ^ 256 ∧ w2 (.sto 3) = ((w (.sto 0) + 1) % 2 ^ 256 + 5) % 2 ^ 256 := by
  obtain ⟨code, hc, hall⟩ := stored_assembly_runs_partial (fun _ => rfl) (evm_memory exTag) ex_places ex_ok ex_stored exTags_ok (M := exMain) rfl 4 ex_fuel
  obtain ⟨tr, w1, hr, _, h1, h2⟩ := ex_run (fun _ => 0) w h
  obtain ⟨n, h', hn, ho, ha, hsame'⟩ := (hall _ w w' below tr _ (fun tr c hr => ex_keeps _ w h hw hr) hsame hr).1 _ rfl
  obtain ⟨op, args, w2⟩ := h'
  simp only at ho ha hsame'
  subst ho ha
  have hout : ∀ k, w2 (.sto k) = w1 (.sto k) := fun k => hsame' _ (by rintro a _ ⟨j, hj, _⟩; cases hj)
  exact ⟨code, n, w2, hc, hn, by rw [hout, h1], by rw [hout, h2]⟩

/-- The hypotheses of the converse are met, too. -/
example (w w' : Loc → Nat) (below : List Nat) (h : (w (.sto 0) + 1) % 2 ^ 256 ≠ 0) (hw : w (.sto 0) < 2 ^ 256)
    (hsame : ∀ l, (∀ a ∈ [128, 160, 192], ¬ InCell a l) → w' l = w l) {code : List Asm}
    (hc : assemble exProg ["g"] exTags exWritten.sched 4 = some code) {n : Nat} {x : Halted Nat (Loc → Nat)}
    (hr : FRuns code evmT exArity ⟨0, below, w'⟩ n (.inr x)) (env : String → Nat) :
    (∃ tr x', Runs exProg evmT ⟨"main", "Block0", env, [], w⟩ tr (.inr x') ∧ x.op = x'.op ∧ x.args = x'.args ∧
      SameOutside (fun a => a ∈ [128, 160, 192]) x'.world x.world) ∨
    ∃ tr c, Runs exProg evmT ⟨"main", "Block0", env, [], w⟩ tr (.inl c) ∧ step exProg evmT c = none :=
  stored_assembly_only_runs_partial (fun _ => rfl) (evm_memory exTag) ex_places ex_ok ex_stored exTags_ok exTags_unique (M := exMain) rfl 4 ex_fuel hc env w w'
    below (fun _ _ hr => ex_keeps env w h hw hr) hsame hr

end Grey.Stored
