/-
C53: a program that meets the hypotheses.
-/
import Verif.Program.Compile
import Verif.Program.ExampleDefs
import Verif.Layout.DriverExample
namespace Grey.Program
open List Grey.Layout Grey.Sfs Grey.SymExec
open Grey.Deps (Reads Writes ReadsKey WritesKey Feeds)

/-- The instructions that the program uses. -/
def Fragment (i : Ins) : Prop :=
  i.lits = none ∧ ((i.op = "sload" ∧ i.inArgs.length = 1 ∧ i.outArgs.length = 1) ∨
    (i.op = "sstore" ∧ i.inArgs.length = 2 ∧ i.outArgs.length = 0) ∨
    (i.op = "add" ∧ i.inArgs.length = 2 ∧ i.outArgs.length = 1) ∨
    (i.op = "PUSH [tag]" ∧ i.inArgs.length = 0 ∧ i.outArgs.length = 1))

instance : DecidablePred Fragment := fun i => by unfold Fragment; infer_instance

/-- The decidable part of the hypotheses about a block. -/
def OkBlock (instrs : List Ins) (src : List String) : Prop :=
  (∀ i ∈ instrs, Fragment i ∧
    (Opcodes.existsOpcode i.name = true ∧ (Opcodes.opcodes.lookup i.op).isNone ∧
      ∀ p ∈ ["SWAP", "DUP", "VERBATIM", "VGET(", "VSET("], ¬ p.toList <:+: i.name.toList) ∧
    ¬ "LiteralAssig".toList <+: i.op.toList ∧ ¬ "push".toList <+: i.op.toList ∧ i.op ≠ "LiteralAssignment" ∧ i.op ≠ "push" ∧
    i.name ≠ "PUSH" ∧ (i.name = "PUSH [TAG]" → i.op = "PUSH [tag]") ∧
    (∀ j ∈ instrs, i.name = j.name → i.op = j.op) ∧
    (∀ v ∈ i.outArgs, v.toList.head? ≠ some 's' ∧ isConst v = false ∧ v ≠ "bottom" ∧ v ∉ src) ∧
    ∀ v ∈ i.inArgs, v.toList.head? ≠ some 's' ∧ v ≠ "bottom") ∧
  (instrs.flatMap (·.outArgs)).Nodup ∧
  (∀ k ∈ List.range instrs.length, ∀ v ∈ ((instrs[k]?).map (·.outArgs)).getD [], ∀ j ∈ instrs.take (k + 1), v ∉ j.inArgs) ∧
  (∀ v ∈ src, v.toList.head? ≠ some 's')

instance (instrs : List Ins) (src : List String) : Decidable (OkBlock instrs src) := by unfold OkBlock; infer_instance

theorem okBlock {instrs : List Ins} {src : List String} (h : OkBlock instrs src) : BlockOk instrs src where
  known := fun i hi => Or.inr (h.1 i hi).2.1
  prefixOnly := fun i hi hp => absurd hp (h.1 i hi).2.2.1
  literal := fun i hi e => absurd e (h.1 i hi).2.2.2.2.1
  push := fun i hi e => absurd e (h.1 i hi).2.2.2.2.2.1
  pushes := fun i hi hp => absurd hp (h.1 i hi).2.2.2.1
  noPush := fun i hi e => absurd e (h.1 i hi).2.2.2.2.2.2.1
  tagOp := fun i hi e => (h.1 i hi).2.2.2.2.2.2.2.1 e
  sameOp := fun i hi j hj e => (h.1 i hi).2.2.2.2.2.2.2.2.1 j hj e
  outs := h.2.1
  defBeforeUse := by
    intro pre i post e v hv j hj
    have hlen : pre.length < instrs.length := by rw [e]; simp
    refine h.2.2.1 pre.length (mem_range.2 hlen) v ?_ j ?_
    · rw [e]; simpa using hv
    · rw [e, take_append, take_of_length_le (by omega)]
      simpa using hj
  proper := fun i hi v hv => by
    obtain ⟨h1, h2, h3, _⟩ := (h.1 i hi).2.2.2.2.2.2.2.2.2.1 v hv
    exact ⟨not_generated h1, not_literal h2, h3⟩
  inputs := fun i hi v hv => by
    obtain ⟨h1, h2⟩ := (h.1 i hi).2.2.2.2.2.2.2.2.2.2 v hv
    exact ⟨not_generated h1, h2⟩
  source := fun v hv => not_generated (h.2.2.2 v hv)
  sourceFresh := fun i hi v hv => ((h.1 i hi).2.2.2.2.2.2.2.2.2.1 v hv).2.2.2

theorem two_of_length {l : List String} (h : l.length = 2) : ∃ a b, l = [a, b] := by
  match l, h with
  | [a, b], _ => exact ⟨a, b, rfl⟩

theorem one_of_length {l : List String} (h : l.length = 1) : ∃ a, l = [a] := by
  match l, h with
  | [a], _ => exact ⟨a, rfl⟩

variable {tag : Option (List String) → Nat}

/-- What the instructions do. -/
theorem fragment_cases {i : Ins} (h : Fragment i) (env : String → Nat) (w : Loc → Nat) :
    (i.op = "sload" ∧ ∃ p, i.inArgs = [p] ∧ (evmTag tag).ins i env w = ([w (.sto ((evmTag tag).read env p))], w) ∧ i.outArgs.length = 1) ∨
    (i.op = "sstore" ∧ ∃ p v, i.inArgs = [p, v] ∧ (evmTag tag).ins i env w = ([], stoStore w ((evmTag tag).read env p) ((evmTag tag).read env v)) ∧
      i.outArgs.length = 0) ∨
    (i.op = "add" ∧ ∃ p q, i.inArgs = [p, q] ∧ (evmTag tag).ins i env w = ([((evmTag tag).read env p + (evmTag tag).read env q) % 2 ^ 256], w) ∧
      i.outArgs.length = 1) ∨
    (i.op = "PUSH [tag]" ∧ i.inArgs = [] ∧ (evmTag tag).ins i env w = ([tag (some i.outArgs)], w) ∧ i.outArgs.length = 1) := by
  obtain ⟨u1, u2, u3, u4, u5⟩ := evmUp
  have u6 := tagName
  obtain ⟨op, ins, outs, lits⟩ := i
  obtain ⟨hl, h⟩ := h
  simp only at hl h ⊢
  subst hl
  rcases h with ⟨rfl, h1, h2⟩ | ⟨rfl, h1, h2⟩ | ⟨rfl, h1, h2⟩ | ⟨rfl, h1, h2⟩
  · obtain ⟨a, rfl⟩ := one_of_length h1
    refine Or.inl ⟨rfl, a, rfl, ?_, h2⟩
    generalize hp : (evmTag tag).read env a = x
    simp [Interp.ins, Ins.name, u4, hp]
    simp [evmTag, evm]
  · obtain ⟨a, b, rfl⟩ := two_of_length h1
    refine Or.inr (Or.inl ⟨rfl, a, b, rfl, ?_, h2⟩)
    generalize hp : (evmTag tag).read env a = x
    generalize hq : (evmTag tag).read env b = y
    simp [Interp.ins, Ins.name, u3, hp, hq]
    simp [evmTag, evm]
  · obtain ⟨a, b, rfl⟩ := two_of_length h1
    refine Or.inr (Or.inr (Or.inl ⟨rfl, a, b, rfl, ?_, h2⟩))
    generalize hp : (evmTag tag).read env a = x
    generalize hq : (evmTag tag).read env b = y
    simp [Interp.ins, Ins.name, u5, hp, hq]
    simp [evmTag, evm]
  · have : ins = [] := length_eq_zero_iff.1 h1
    subst this
    refine Or.inr (Or.inr (Or.inr ⟨rfl, rfl, ?_, h2⟩))
    have hlit : "PUSH [tag]" ∉ literalArgOps := by decide
    simp [Interp.ins, Ins.name, u6, Ins.extra, hlit]
    simp [evmTag]

theorem fragment_interp {instrs : List Ins} (h : ∀ i ∈ instrs, Fragment i) : InterpOk (evmTag tag) instrs where
  arity := by
    intro i hi env w
    rcases fragment_cases (h i hi) env w with ⟨_, _, _, e, h2⟩ | ⟨_, _, _, _, e, h2⟩ | ⟨_, _, _, _, e, h2⟩ | ⟨_, _, e, h2⟩ <;>
      rw [e, h2] <;> rfl
  quiet := by
    intro i hi hne lits args w
    obtain ⟨u1, u2, u3, u4, u5⟩ := evmUp
    have u6 := tagName
    obtain ⟨_, h1⟩ := h i hi
    rcases h1 with ⟨e, _⟩ | ⟨e, _⟩ | ⟨e, _⟩ | ⟨e, _⟩
    · simp only [evmTag, evm, Ins.name, e, u4]
      repeat' split
      all_goals simp_all
    · exact absurd (by unfold Ins.Effect Ins.name; rw [e]; decide +kernel) hne
    · simp only [evmTag, evm, Ins.name, e, u5]
      repeat' split
      all_goals simp_all
    · simp only [evmTag, Ins.name, e, u6, if_true]
  const := by
    intro i hi hp
    have : ∀ o ∈ ["sload", "sstore", "add", "PUSH [tag]"], ¬ "push".toList <+: o.toList := by decide +kernel
    obtain ⟨_, h1⟩ := h i hi
    rcases h1 with ⟨e, _⟩ | ⟨e, _⟩ | ⟨e, _⟩ | ⟨e, _⟩ <;> exact absurd hp (this _ (by rw [e]; simp))
  comm := by
    intro o ho lits a b w
    simp only [mem_cons, not_mem_nil, or_false] at ho
    rcases ho with rfl | rfl | rfl | rfl | rfl | rfl <;> simp [evmTag, evm, Nat.add_comm]

theorem fragment_local {instrs : List Ins} (h : ∀ i ∈ instrs, Fragment i) : LocalOk (evmTag tag) instrs where
  result := by
    intro i hi env w w' hr
    rcases fragment_cases (h i hi) env w with ⟨o, p, ha, e, _⟩ | ⟨o, p, v, ha, e, _⟩ | ⟨o, p, q, ha, e, _⟩ | ⟨o, ha, e, _⟩ <;>
    rcases fragment_cases (h i hi) env w' with ⟨o', p', ha', e', _⟩ | ⟨o', p', v', ha', e', _⟩ | ⟨o', p', q', ha', e', _⟩ | ⟨o', ha', e', _⟩ <;>
    rw [o] at o' <;> first | exact absurd o' (by decide) | skip
    · rw [ha] at ha'
      simp only [cons.injEq, and_true] at ha'
      subst ha'
      rw [e, e']
      simp only [cons.injEq, and_true]
      exact hr (.sto _) (by rw [o, ha]; exact Or.inl ⟨rfl, rfl⟩)
    · rw [e, e']
    · rw [ha] at ha'
      simp only [cons.injEq, and_true] at ha'
      obtain ⟨rfl, rfl⟩ := ha'
      rw [e, e']
    · rw [e, e']
  written := by
    intro i hi env w w' hr l hl
    rcases fragment_cases (h i hi) env w with ⟨o, p, ha, e, _⟩ | ⟨o, p, v, ha, e, _⟩ | ⟨o, p, q, ha, e, _⟩ | ⟨o, ha, e, _⟩ <;>
    rcases fragment_cases (h i hi) env w' with ⟨o', p', ha', e', _⟩ | ⟨o', p', v', ha', e', _⟩ | ⟨o', p', q', ha', e', _⟩ | ⟨o', ha', e', _⟩ <;>
    rw [o] at o' <;> first | exact absurd o' (by decide) | skip
    · rw [e, e']; exact hl
    · rw [ha] at ha'
      simp only [cons.injEq, and_true] at ha'
      obtain ⟨rfl, rfl⟩ := ha'
      rw [e, e']
      cases l <;> simp [stoStore, hl]
    · rw [e, e']; exact hl
    · rw [e, e']; exact hl
  untouched := by
    intro i hi env w l hl
    rcases fragment_cases (h i hi) env w with ⟨o, p, ha, e, _⟩ | ⟨o, p, v, ha, e, _⟩ | ⟨o, p, q, ha, e, _⟩ | ⟨o, ha, e, _⟩
    · rw [e]
    · rw [e]
      cases l with
      | sto k =>
        rw [o, ha] at hl
        have hk : ¬ (evmTag tag).read env p = k := by simpa [MayWrite, WritesKey] using hl
        simp only [stoStore]
        rw [if_neg (fun e => hk e.symm)]
      | _ => rfl
    · rw [e]
    · rw [e]

/-- The decidable part of the hypotheses about the schedule of a block. -/
def OkCode (instrs : List Ins) (split : Option Ins) (src tgt : List String) (junk : Bool) (ids : List String) : Prop :=
  OkBlock instrs (substDuplicates src) ∧ (∀ v ∈ beforeSplit split tgt, v.toList.head? ≠ some 's') ∧
  (match buildSpec instrs split [] (substDuplicates src) tgt with
    | some p => check ⟨p.1.entries.map (·.instr), p.1.src, p.1.tgt, p.2⟩ ids junk = true ∧ p.1.unused = []
    | none => False) ∧
  (∀ s ∈ ids, match classify s with
    | some (.get _) => False
    | some (.swap 0) => False
    | _ => True) ∧
  ∀ a ∈ instrs, a.op ∈ ["sload", "sstore", "tload", "tstore"] → ∀ u ∈ a.inArgs.take 1, ∀ b ∈ instrs, u ∉ b.outArgs

instance (instrs : List Ins) (split : Option Ins) (src tgt : List String) (junk : Bool) (ids : List String) :
    Decidable (OkCode instrs split src tgt junk ids) := by
  unfold OkCode
  have : Decidable (match buildSpec instrs split [] (substDuplicates src) tgt with
    | some p => check ⟨p.1.entries.map (·.instr), p.1.src, p.1.tgt, p.2⟩ ids junk = true ∧ p.1.unused = []
    | none => False) := by split <;> infer_instance
  have : ∀ s, Decidable (match classify s with
    | some (.get _) => False
    | some (.swap 0) => False
    | _ => True) := by intro s; split <;> infer_instance
  infer_instance

theorem okAnalysable {instrs : List Ins} {src : List String} {positions : List (Nat × String)} (h1 : OkBlock instrs src)
    (h5 : ∀ a ∈ instrs, a.op ∈ ["sload", "sstore", "tload", "tstore"] → ∀ u ∈ a.inArgs.take 1, ∀ b ∈ instrs, u ∉ b.outArgs) (val : String → Nat) :
    Analysable instrs positions [] val := by
  have hfrag : ∀ i ∈ instrs, Fragment i := fun i hi => (h1.1 i hi).1
  have hops : ∀ i ∈ instrs, i.op ∈ ["sload", "sstore", "add", "PUSH [tag]"] := by
    intro i hi
    obtain ⟨_, h⟩ := hfrag i hi
    rcases h with ⟨e, _⟩ | ⟨e, _⟩ | ⟨e, _⟩ | ⟨e, _⟩ <;> rw [e] <;> simp
  have hno : ∀ o ∈ ["sload", "sstore", "add", "PUSH [tag]"], ¬ (o = "return" ∨ o = "revert") ∧ o ∉ envWriters ∧ o ∉ createOps := by
    decide
  refine ⟨fun i hi => (hno _ (hops i hi)).1, ?_, ?_, ?_, ?_⟩
  · intro m n a b _ ha hb h
    exfalso
    rcases h with h | h
    · exact (hno _ (hops a (mem_of_getElem? ha))).2.1 h.1
    · exact (hno _ (hops b (mem_of_getElem? hb))).2.1 h.2
  · intro a ha hc
    exact absurd hc (hno _ (hops a ha)).2.2
  · intro ops ho a ha b hb hao hbo u v hu hv hf
    exfalso
    have hb4 : b.op ∈ ["sload", "sstore", "tload", "tstore"] := by
      simp only [mem_cons, not_mem_nil, or_false] at ho
      rcases ho with rfl | rfl <;> simp only [mem_cons, not_mem_nil, or_false] at hbo ⊢ <;> tauto
    have hv' : v ∈ b.inArgs.take 1 := by
      cases hc : b.inArgs with
      | nil => rw [hc] at hv; simp at hv
      | cons x l => rw [hc] at hv; simp at hv; simp [hv]
    have hno := h5 b hb hb4 v hv'
    cases hf with
    | direct h1 h2 _ =>
      obtain ⟨i, hi, e⟩ := mem_map.1 h1
      simp only [Prod.mk.injEq] at e
      exact hno i hi (by rw [e.2.2]; exact h2)
    | through h1 h2 _ _ =>
      obtain ⟨i, hi, e⟩ := mem_map.1 h1
      simp only [Prod.mk.injEq] at e
      exact hno i hi (by rw [e.2.2]; exact h2)
  · intro n i x _ _ _
    simp

theorem okCode {instrs : List Ins} {split : Option Ins} {src tgt : List String} {junk : Bool} {ids : List String}
    (h : OkCode instrs split src tgt junk ids) : BlockAccepted (evmTag tag) instrs split src tgt junk ids := by
  obtain ⟨h1, h2, h3, h4, h5⟩ := h
  have hfrag : ∀ i ∈ instrs, Fragment i := fun i hi => (h1.1 i hi).1
  refine ⟨okBlock h1, fragment_interp hfrag, fragment_local hfrag, fun v hv => not_generated (h2 v hv), ?_, ?_, ?_⟩
  · split at h3
    · rename_i p hp
      refine ⟨p.1, p.2, hp, h3.1, fun env w => ?_⟩
      rw [h3.2]
      exact okAnalysable h1 h5 _
    · exact h3.elim
  · intro s hs e
    have := h4 s hs
    rw [e] at this
    exact this
  · intro pre s post v e hc
    have := h4 s (by rw [e]; simp)
    rw [hc] at this
    exact this.elim

/-- The schedules. -/
def exSched (_ b : String) : List String :=
  if b = "Block0" then ["PUSH [TAG]_1", "PUSH0_0", "SLOAD_0", "PUSH [TAG]_0"]
  else if b = "M1" then ["DUP1", "DUP1", "PUSH_0", "SSTORE_0", "PUSH [TAG]_0"]
  else if b = "M3" then ["PUSH_0", "ADD_0", "PUSH [TAG]_0"]
  else if b = "M2" then ["DUP1", "PUSH_0", "SSTORE_0"]
  else if b = "g_Block0" then ["PUSH_0", "ADD_0", "SWAP1"]
  else []

theorem accepted_of {F : Fn} {sched : String → List String} (hd : (drive F.graph).toOption.isSome = true)
    (h : ∀ p ∈ specsOf F.graph, OkCode (F.instrs p.1) (F.split p.1) p.2.1 p.2.2 (F.graph.canJunk p.1) (sched p.1) ∧
      (substDuplicates p.2.1).Nodup ∧ ∀ v ∈ ((F.split p.1).map (·.outArgs)).getD [], v ∉ p.2.1) : ∃ st, Accepted (evmTag tag) sched F st := by
  cases hc : drive F.graph with
  | error e => rw [hc] at hd; simp [Except.toOption] at hd
  | ok st =>
    refine ⟨st, hc, fun B hB src tgt hs => ?_⟩
    have hm : (B.id, src, tgt) ∈ specsOf F.graph := by unfold specsOf; rw [hc]; exact hs
    obtain ⟨h1, h2, h3⟩ := h _ hm
    exact ⟨okCode h1, h2, h3⟩

theorem exMain_accepted : ∃ st, Accepted evmT (exSched "main") exMain st :=
  accepted_of (by decide +kernel) (by decide +kernel)

theorem exG_accepted : ∃ st, Accepted evmT (exSched "g") exG st :=
  accepted_of (by decide +kernel) (by decide +kernel)

theorem not_padding {x : String} (h : x.toList.head? ≠ some 'a' ∧ x.toList.head? ≠ some 'b') : ¬ Padding x := by
  rintro (⟨n, rfl⟩ | ⟨n, rfl⟩)
  · exact h.1 (by simp)
  · exact h.2 (by simp [pseudoName])

/-- A name that is neither generated nor padding nor a constant. -/
def OkName (v : String) : Prop :=
  (v.toList.head? ≠ some 'a' ∧ v.toList.head? ≠ some 'b') ∧ v.toList.head? ≠ some 's' ∧ isConst v = false

instance : DecidablePred OkName := fun v => by unfold OkName; infer_instance

theorem okName {v : String} (h : OkName v) : Proper v ∧ ¬ Padding v :=
  ⟨⟨not_generated h.2.1, not_literal h.2.2, fun e => h.1.2 (by rw [e]; decide)⟩, not_padding h.1⟩

theorem exMain_ok : FnOk exProg evmT exDest "main" exMain where
  wf := by constructor <;> decide +kernel
  one := by unfold OneJoin; decide +kernel
  start := by decide +kernel
  junk := by intro h; exact absurd rfl h
  inputs := fun _ => rfl
  final := by decide +kernel
  outs := by
    intro B hB h
    have : ∀ B ∈ exMain.graph.blocks, exMain.exitOuts B = [] ∨ exProg.exit exMain B = .call "g" := by decide +kernel
    rcases this B hB with e | e
    · exact e
    · exact absurd e (h "g")
  callJoin := by decide +kernel
  ret := by
    intro B hB h
    have : ∀ B ∈ exMain.graph.blocks, exProg.exit exMain B ≠ .ret := by decide +kernel
    exact absurd h (this B hB)
  insOuts := by decide +kernel
  outsNodup := by decide +kernel
  inputsNodup := by decide +kernel
  properIns := by
    have : ∀ B ∈ exMain.graph.blocks, ∀ i ∈ exMain.instrs B.id, ∀ v ∈ i.outArgs, OkName v := by decide +kernel
    exact fun B hB i hi v hv => okName (this B hB i hi v hv)
  properOuts := by
    have : ∀ B ∈ exMain.graph.blocks, ∀ v ∈ exMain.exitOuts B, OkName v := by decide +kernel
    exact fun B hB v hv => okName (this B hB v hv)
  properPhi := by
    have : ∀ B ∈ exMain.graph.blocks, ∀ p ∈ B.phis, OkName p.out := by decide +kernel
    exact fun B hB p hp => okName (this B hB p hp)
  properInputs := by
    have : ∀ v ∈ exMain.graph.inputs, OkName v := by decide +kernel
    exact fun v hv => okName (this v hv)
  namesIns := by
    have : ∀ B ∈ exMain.graph.blocks, ∀ i ∈ exMain.instrs B.id, ∀ v ∈ i.inArgs, v.toList.head? ≠ some 'a' ∧ v.toList.head? ≠ some 'b' := by
      decide +kernel
    exact fun B hB i hi v hv => not_padding (this B hB i hi v hv)
  namesArgs := by
    have : ∀ B ∈ exMain.graph.blocks, ∀ v ∈ exMain.exitArgs B, v.toList.head? ≠ some 'a' ∧ v.toList.head? ≠ some 'b' := by decide +kernel
    exact fun B hB v hv => not_padding (this B hB v hv)
  namesPhi := by
    have : ∀ B ∈ exMain.graph.blocks, ∀ p ∈ B.phis, ∀ v ∈ p.args, v.toList.head? ≠ some 'a' ∧ v.toList.head? ≠ some 'b' := by decide +kernel
    exact fun B hB p hp v hv => not_padding (this B hB p hp v hv)
  jumps := by
    intro B hB h
    have : ∀ B ∈ exMain.graph.blocks, exProg.exit exMain B = .jump → B.id = "M3" ∧ exMain.exitArgs B = ["4"] ∧
        B.jumpTo = some "M2" := by decide +kernel
    obtain ⟨h1, h2, h3⟩ := this B hB h
    refine ⟨"4", "M2", h2, h3, ⟨⟨"PUSH [tag]", [], ["4"], none⟩, by rw [h1]; decide +kernel, rfl, rfl, rfl⟩, 400, ?_, by decide⟩
    intro w
    simp [evmTag, exTag]
  branches := by
    intro B hB h
    have : ∀ B ∈ exMain.graph.blocks, exProg.exit exMain B = .branch → B.id = "M1" ∧ exMain.exitArgs B = ["3", "r"] ∧
        B.jumpTo = some "M3" := by decide +kernel
    obtain ⟨h1, h2, h3⟩ := this B hB h
    refine ⟨"3", "r", "M3", h2, h3, ⟨⟨"PUSH [tag]", [], ["3"], none⟩, by rw [h1]; decide +kernel, rfl, rfl, rfl⟩, 300, ?_, by decide⟩
    intro w
    simp [evmTag, exTag]
  calls := by
    intro B hB g G h hG
    have hg : g = "g" := by
      have : ∀ B ∈ exMain.graph.blocks, exProg.exit exMain B = .call "g" ∨ exProg.exit exMain B = .branch ∨
          exProg.exit exMain B = .jump ∨ exProg.exit exMain B = .halt := by decide +kernel
      rcases this B hB with e | e | e | e <;> rw [e] at h <;> simp at h
      exact h.symm
    subst hg
    have : ∀ B ∈ exMain.graph.blocks, exProg.exit exMain B = .call "g" → B.id = "Block0" ∧ exMain.exitArgs B = ["1", "v", "2"] ∧
        B.fallsTo = some "M1" := by decide +kernel
    obtain ⟨h1, h2, h3⟩ := this B hB h
    obtain rfl : exG = G := by simpa [exProg] using hG
    refine ⟨by decide, ⟨"1", ["v", "2"], h2, ⟨⟨"PUSH [tag]", [], ["1"], none⟩, by rw [h1]; decide +kernel, rfl, rfl, rfl⟩, 100, ?_,
      by decide⟩, fun _ n hn => ⟨"2", by rw [h2]; rfl, ⟨⟨"PUSH [tag]", [], ["2"], none⟩, by rw [h1]; decide +kernel, rfl, rfl, rfl⟩, 200, ?_, ?_⟩⟩
    · intro w; simp [evmTag, exTag]
    · intro w; simp [evmTag, exTag]
    · rw [h3, Option.some.injEq] at hn
      subst hn
      decide
  returns := by
    intro B hB h
    have : ∀ B ∈ exMain.graph.blocks, exProg.exit exMain B ≠ .ret := by decide +kernel
    exact absurd h (this B hB)
  keeps := by
    rintro ⟨B, hB, h⟩
    have : ∀ B ∈ exMain.graph.blocks, exProg.exit exMain B ≠ .ret := by decide +kernel
    exact absurd h (this B hB)

theorem exG_ok : FnOk exProg evmT exDest "g" exG where
  wf := by constructor <;> decide +kernel
  one := by unfold OneJoin; decide +kernel
  start := by decide +kernel
  junk := by intro _ b; rfl
  inputs := by intro h; exact absurd h (by decide)
  final := by decide +kernel
  outs := by
    intro B hB _
    have : ∀ B ∈ exG.graph.blocks, exG.exitOuts B = [] := by decide +kernel
    exact this B hB
  callJoin := by decide +kernel
  ret := by decide +kernel
  insOuts := by decide +kernel
  outsNodup := by decide +kernel
  inputsNodup := by decide +kernel
  properIns := by
    have : ∀ B ∈ exG.graph.blocks, ∀ i ∈ exG.instrs B.id, ∀ v ∈ i.outArgs, OkName v := by decide +kernel
    exact fun B hB i hi v hv => okName (this B hB i hi v hv)
  properOuts := by
    have : ∀ B ∈ exG.graph.blocks, ∀ v ∈ exG.exitOuts B, OkName v := by decide +kernel
    exact fun B hB v hv => okName (this B hB v hv)
  properPhi := by
    have : ∀ B ∈ exG.graph.blocks, ∀ p ∈ B.phis, OkName p.out := by decide +kernel
    exact fun B hB p hp => okName (this B hB p hp)
  properInputs := by
    have : ∀ v ∈ exG.graph.inputs, OkName v := by decide +kernel
    exact fun v hv => okName (this v hv)
  namesIns := by
    have : ∀ B ∈ exG.graph.blocks, ∀ i ∈ exG.instrs B.id, ∀ v ∈ i.inArgs, v.toList.head? ≠ some 'a' ∧ v.toList.head? ≠ some 'b' := by
      decide +kernel
    exact fun B hB i hi v hv => not_padding (this B hB i hi v hv)
  namesArgs := by
    have : ∀ B ∈ exG.graph.blocks, ∀ v ∈ exG.exitArgs B, v.toList.head? ≠ some 'a' ∧ v.toList.head? ≠ some 'b' := by decide +kernel
    exact fun B hB v hv => not_padding (this B hB v hv)
  namesPhi := by
    have : ∀ B ∈ exG.graph.blocks, ∀ p ∈ B.phis, ∀ v ∈ p.args, v.toList.head? ≠ some 'a' ∧ v.toList.head? ≠ some 'b' := by decide +kernel
    exact fun B hB p hp v hv => not_padding (this B hB p hp v hv)
  jumps := by
    intro B hB h
    have : ∀ B ∈ exG.graph.blocks, exProg.exit exG B ≠ .jump := by decide +kernel
    exact absurd h (this B hB)
  branches := by
    intro B hB h
    have : ∀ B ∈ exG.graph.blocks, exProg.exit exG B ≠ .branch := by decide +kernel
    exact absurd h (this B hB)
  calls := by
    intro B hB g G h
    have : ∀ B ∈ exG.graph.blocks, exProg.exit exG B = .ret := by decide +kernel
    rw [this B hB] at h
    simp at h
  returns := by
    intro B hB _
    have : ∀ B ∈ exG.graph.blocks, exG.exitArgs B = ["out_g", "y"] := by decide +kernel
    exact ⟨"out_g", ["y"], this B hB, rfl⟩
  keeps := by
    intro _ o ho
    obtain rfl : "out_g" = o := by simpa [exG, exGGraph] using ho
    decide +kernel

/-- The program and its code meet the hypotheses of C53: from every state the machine goes where the graphs go. -/
theorem exProg_runs (env : String → Nat) (w : Loc → Nat) (slot : Var → Nat) (below : List Nat)
    {tr : List (String × String × (Loc → Nat))} {x : Config Nat (Loc → Nat) ⊕ Halted Nat (Loc → Nat)}
    (hr : Runs exProg evmT ⟨"main", "Block0", env, [], w⟩ tr x) :
    ∃ y, MRuns 0 (compile exProg evmT exSched) exDest ⟨"main", "Block0", below, slot, w⟩ tr y ∧ Agree x y := by
  refine generated_code_runs_partial (fun _ => rfl) ?_ ?_ (F := exMain) rfl env w slot below hr
  · intro f F hF
    simp only [exProg] at hF
    split at hF
    · rename_i e; subst e; simp only [Option.some.injEq] at hF; subst hF; exact exMain_ok
    · split at hF
      · rename_i e; subst e; simp only [Option.some.injEq] at hF; subst hF; exact exG_ok
      · simp at hF
  · intro f F hF
    simp only [exProg] at hF
    split at hF
    · rename_i e; subst e; simp only [Option.some.injEq] at hF; subst hF; exact exMain_accepted
    · split at hF
      · rename_i e; subst e; simp only [Option.some.injEq] at hF; subst hF; exact exG_accepted
      · simp at hF

/-! ### A run of the program -/

theorem ex_tag (t : String) (e : String → Nat) (w : Loc → Nat) :
    evmT.ins ⟨"PUSH [tag]", [], [t], none⟩ e w = ([exTag (some [t])], w) := by
  have hlit : "PUSH [tag]" ∉ literalArgOps := by decide
  simp [Interp.ins, Ins.name, tagName, Ins.extra, hlit]
  simp [evmTag]

theorem ex_const {c : String} {n : Nat} (h : isConst c = true) (hn : constNumber c = n) (e : String → Nat) : evmT.read e c = n := by
  unfold Interp.read
  rw [if_pos ((isConst_iff _).1 h), hn]
  rfl

theorem ex_var {x : String} (h : OkName x) (e : String → Nat) : evmT.read e x = e x := read_proper (okName h).1

theorem ex_sload (p v : String) (e : String → Nat) (w : Loc → Nat) :
    evmT.ins ⟨"sload", [p], [v], none⟩ e w = ([w (.sto (evmT.read e p))], w) := by
  generalize hp : evmT.read e p = x
  simp [Interp.ins, Ins.name, evmUp.2.2.2.1, hp]
  simp [evmTag, evm]

theorem ex_sstore (p v : String) (e : String → Nat) (w : Loc → Nat) :
    evmT.ins ⟨"sstore", [p, v], [], none⟩ e w = ([], stoStore w (evmT.read e p) (evmT.read e v)) := by
  generalize hp : evmT.read e p = x
  generalize hv : evmT.read e v = y
  simp [Interp.ins, Ins.name, evmUp.2.2.1, hp, hv]
  simp [evmTag, evm]

theorem ex_add (p q v : String) (e : String → Nat) (w : Loc → Nat) :
    evmT.ins ⟨"add", [p, q], [v], none⟩ e w = ([(evmT.read e p + evmT.read e q) % 2 ^ 256], w) := by
  generalize hp : evmT.read e p = x
  generalize hv : evmT.read e q = y
  simp [Interp.ins, Ins.name, evmUp.2.2.2.2, hp, hv]
  simp [evmTag, evm]

theorem exM0 (env : String → Nat) (w : Loc → Nat) : ∃ env1 env2, step exProg evmT ⟨"main", "Block0", env, [], w⟩ =
    some (.inl ⟨"g", "g_Block0", env1, [⟨"main", "Block0", env2⟩], w⟩) ∧ env1 "x" = w (.sto 0) := by
  have hF : exProg.fns "main" = some exMain := rfl
  have hG : exProg.fns "g" = some exG := rfl
  obtain ⟨B, hB, hid, hE, ha⟩ : ∃ B, exMain.graph.block "Block0" = some B ∧ B.id = "Block0" ∧ exProg.exit exMain B = .call "g" ∧
      exMain.exitArgs B = ["1", "v", "2"] := ⟨_, rfl, rfl, by decide +kernel, by decide +kernel⟩
  have hi : exMain.instrs "Block0" = [⟨"sload", ["0x00"], ["v"], none⟩, ⟨"PUSH [tag]", [], ["1"], none⟩, ⟨"PUSH [tag]", [], ["2"], none⟩] := by
    decide +kernel
  unfold step
  simp only [hF, Option.bind_some, hB, hE, hG, hid, ha, hi, blockRun, ex_sload, ex_tag, map_cons, map_nil,
    ex_const (c := "0x00") (n := 0) (by decide) (by decide +kernel), ex_var (x := "v") (by decide), ex_var (x := "1") (by decide),
    ex_var (x := "2") (by decide)]
  simp [exG, exGGraph, assign, exTag]

theorem exG0 (env env2 : String → Nat) (w : Loc → Nat) : ∃ env3, step exProg evmT ⟨"g", "g_Block0", env, [⟨"main", "Block0", env2⟩], w⟩ =
    some (.inl ⟨"main", "M1", env3, [], w⟩) ∧ env3 "r" = (env "x" + 1) % 2 ^ 256 := by
  have hF : exProg.fns "main" = some exMain := rfl
  have hG : exProg.fns "g" = some exG := rfl
  obtain ⟨B, hB, hid, hE, ha⟩ : ∃ B, exG.graph.block "g_Block0" = some B ∧ B.id = "g_Block0" ∧ exProg.exit exG B = .ret ∧
      exG.exitArgs B = ["out_g", "y"] := ⟨_, rfl, rfl, by decide +kernel, by decide +kernel⟩
  obtain ⟨B', hB', ho, hf⟩ : ∃ B, exMain.graph.block "Block0" = some B ∧ exMain.exitOuts B = ["r"] ∧ B.fallsTo = some "M1" :=
    ⟨_, rfl, by decide +kernel, rfl⟩
  obtain ⟨S, hS, hSid, hphi⟩ : ∃ B, exMain.graph.block "M1" = some B ∧ B.id = "M1" ∧ B.phis = [] := ⟨_, rfl, rfl, rfl⟩
  have hi : exG.instrs "g_Block0" = [⟨"add", ["x", "0x01"], ["y"], none⟩] := rfl
  unfold step
  simp only [hF, Option.bind_some, hB, hE, hG, hid, ha, hi, hB', ho, blockRun, ex_add, map_cons, map_nil,
    ex_const (c := "0x01") (n := 1) (by decide) (by decide +kernel), ex_var (x := "x") (by decide), ex_var (x := "y") (by decide),
    ex_var (x := "out_g") (by decide), goto, hf, hS, hphi, hSid]
  simp [assign, enter, hphi, hSid]

theorem exM1 (env : String → Nat) (w : Loc → Nat) (hr : env "r" ≠ 0) : ∃ env4, step exProg evmT ⟨"main", "M1", env, [], w⟩ =
    some (.inl ⟨"main", "M3", env4, [], stoStore w 1 (env "r")⟩) ∧ env4 "r" = env "r" := by
  have hF : exProg.fns "main" = some exMain := rfl
  obtain ⟨B, hB, hid, hE, ha, hj⟩ : ∃ B, exMain.graph.block "M1" = some B ∧ B.id = "M1" ∧ exProg.exit exMain B = .branch ∧
      exMain.exitArgs B = ["3", "r"] ∧ B.jumpTo = some "M3" := ⟨_, rfl, rfl, by decide +kernel, by decide +kernel, rfl⟩
  obtain ⟨S, hS, hSid, hphi⟩ : ∃ B, exMain.graph.block "M3" = some B ∧ B.id = "M3" ∧ B.phis = [] := ⟨_, rfl, rfl, rfl⟩
  have hi : exMain.instrs "M1" = [⟨"sstore", ["0x01", "r"], [], none⟩, ⟨"PUSH [tag]", [], ["3"], none⟩] := by decide +kernel
  have hnum : evmT.num 0 = 0 := rfl
  unfold step
  simp only [hF, Option.bind_some, hB, hE, hid, ha, hi, blockRun, ex_sstore, ex_tag, map_cons, map_nil,
    ex_const (c := "0x01") (n := 1) (by decide) (by decide +kernel), ex_var (x := "r") (by decide), ex_var (x := "3") (by decide), goto,
    assign, getElem?_cons_succ, getElem?_cons_zero, hnum, Option.some.injEq]
  have hne : ("r" = "3") = False := by simp
  simp only [hne, if_false, hr, hj, Option.bind_some, hS, Option.map_some, hSid, hphi]
  refine ⟨_, rfl, ?_⟩
  simp [enter]

theorem exM3 (env : String → Nat) (w : Loc → Nat) : ∃ env5, step exProg evmT ⟨"main", "M3", env, [], w⟩ =
    some (.inl ⟨"main", "M2", env5, [], w⟩) ∧ env5 "p" = (env "r" + 5) % 2 ^ 256 := by
  have hF : exProg.fns "main" = some exMain := rfl
  obtain ⟨B, hB, hid, hE, ha, hj⟩ : ∃ B, exMain.graph.block "M3" = some B ∧ B.id = "M3" ∧ exProg.exit exMain B = .jump ∧
      exMain.exitArgs B = ["4"] ∧ B.jumpTo = some "M2" := ⟨_, rfl, rfl, by decide +kernel, by decide +kernel, rfl⟩
  obtain ⟨S, hS, hSid, hphi, hpr⟩ : ∃ B, exMain.graph.block "M2" = some B ∧ B.id = "M2" ∧ B.phis = [⟨"p", ["r", "q"]⟩] ∧
      B.preds.idxOf "M3" = 1 := ⟨_, rfl, rfl, rfl, by decide +kernel⟩
  have hi : exMain.instrs "M3" = [⟨"add", ["r", "0x05"], ["q"], none⟩, ⟨"PUSH [tag]", [], ["4"], none⟩] := by decide +kernel
  unfold step
  simp only [hF, Option.bind_some, hB, hE, hid, ha, hi, blockRun, ex_add, ex_tag, map_cons, map_nil,
    ex_const (c := "0x05") (n := 5) (by decide) (by decide +kernel), ex_var (x := "r") (by decide), ex_var (x := "4") (by decide), goto,
    assign, hj, hS, hSid, hphi, hpr, Option.map_some]
  refine ⟨_, rfl, ?_⟩
  simp [enter, hphi, ex_var (x := "q") (by decide)]

theorem exM2 (env : String → Nat) (w : Loc → Nat) : step exProg evmT ⟨"main", "M2", env, [], w⟩ =
    some (.inr ⟨"STOP", [], stoStore w 3 (env "p")⟩) := by
  have hF : exProg.fns "main" = some exMain := rfl
  obtain ⟨B, hB, hid, hE, ha, ho⟩ : ∃ B, exMain.graph.block "M2" = some B ∧ B.id = "M2" ∧ exProg.exit exMain B = .halt ∧
      exMain.exitArgs B = [] ∧ exMain.exitOp B = "STOP" :=
    ⟨_, rfl, rfl, by decide +kernel, by decide +kernel, by decide +kernel⟩
  have hi : exMain.instrs "M2" = [⟨"sstore", ["0x03", "p"], [], none⟩] := by decide +kernel
  unfold step
  simp only [hF, Option.bind_some, hB, hE, hid, ha, hi, ho, blockRun, ex_sstore, map_nil,
    ex_const (c := "0x03") (n := 3) (by decide) (by decide +kernel), ex_var (x := "p") (by decide)]

/-- The run, when the result of `g` is not zero. -/
theorem ex_run (env : String → Nat) (w : Loc → Nat) (h : (w (.sto 0) + 1) % 2 ^ 256 ≠ 0) :
    ∃ tr w', Runs exProg evmT ⟨"main", "Block0", env, [], w⟩ tr (.inr ⟨"STOP", [], w'⟩) ∧
      tr.map (fun t => (t.1, t.2.1)) = [("main", "Block0"), ("g", "g_Block0"), ("main", "M1"), ("main", "M3"), ("main", "M2")] ∧
      w' (.sto 1) = (w (.sto 0) + 1) % 2 ^ 256 ∧ w' (.sto 3) = ((w (.sto 0) + 1) % 2 ^ 256 + 5) % 2 ^ 256 := by
  obtain ⟨env1, env2, s0, h0⟩ := exM0 env w
  obtain ⟨env3, s1, h1⟩ := exG0 env1 env2 w
  rw [h0] at h1
  obtain ⟨env4, s2, h2⟩ := exM1 env3 w (by rw [h1]; exact h)
  obtain ⟨env5, s3, h3⟩ := exM3 env4 (stoStore w 1 (env3 "r"))
  refine ⟨_, _, .cons s0 (.cons s1 (.cons s2 (.cons s3 (.halt (exM2 env5 _))))), rfl, ?_, ?_⟩
  · simp [stoStore, h1]
  · simp [stoStore, h3, h2, h1]

/-- The hypothesis of `exProg_runs` is met by runs to the end: so the machine stops, with the expected values. -/
example (env : String → Nat) (w : Loc → Nat) (slot : Var → Nat) (below : List Nat) (h : (w (.sto 0) + 1) % 2 ^ 256 ≠ 0) :
    ∃ tr w', MRuns 0 (compile exProg evmT exSched) exDest ⟨"main", "Block0", below, slot, w⟩ tr (.inr ⟨"STOP", [], w'⟩) ∧
      tr.map (fun t => (t.1, t.2.1)) = [("main", "Block0"), ("g", "g_Block0"), ("main", "M1"), ("main", "M3"), ("main", "M2")] ∧
      w' (.sto 1) = (w (.sto 0) + 1) % 2 ^ 256 ∧ w' (.sto 3) = ((w (.sto 0) + 1) % 2 ^ 256 + 5) % 2 ^ 256 := by
  obtain ⟨tr, w', hr, htr, h1, h2⟩ := ex_run env w h
  obtain ⟨y, hy, ha⟩ := exProg_runs env w slot below hr
  cases y with
  | inl m => exact ha.elim
  | inr h' =>
    unfold Agree at ha
    subst ha
    exact ⟨_, _, hy, htr, h1, h2⟩

end Grey.Program
