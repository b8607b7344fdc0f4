/-
What holds of the graphs of an object between renaming and lowering.
-/
import Verif.Front.Spec
import Verif.Lower.Fine
namespace Grey.Front
open List Grey.Cfg Grey.Inline Grey.Prep Grey.Lower

/-! ### Names -/

theorem digits_all {n : Nat} {c : Char} (h : c ∈ (toString n).toList) : c.isDigit = true :=
  Nat.isDigit_of_mem_toDigits (b := 10) (n := n) (by omega) (by omega) (by simpa using h)

/-- New names are plain. -/
theorem plain_new (n : Nat) : Plain ("v" ++ toString n) := by
  have e : ("v" ++ toString n).toList = 'v' :: (toString n).toList := by simp [String.toList_append]
  refine ⟨fun m hm => ?_, fun f hf => ?_, fun hb => ?_⟩
  · have := digits_all (n := m) (c := 'v') (by rw [← hm, e]; simp)
    exact absurd this (by decide)
  · have h1 := congrArg String.toList hf
    rw [e, String.toList_append] at h1
    have h2 : "out_".toList = ['o', 'u', 't', '_'] := by decide
    rw [h2] at h1
    simp at h1
  · have h1 := congrArg String.toList hb
    rw [e] at h1
    have h2 : "bottom".toList = ['b', 'o', 't', 't', 'o', 'm'] := by decide
    rw [h2] at h1
    simp at h1

/-- Constants are plain. -/
theorem plain_const {x : String} (h : Cfg.isConst x = true) : Plain x := by
  have h0 : ∃ l, x.toList = '0' :: 'x' :: l := by
    unfold Cfg.isConst at h
    rcases hx : x.toList with _ | ⟨a, _ | ⟨c, l⟩⟩ <;> rw [hx] at h <;> simp at h
    exact ⟨l, by rw [← h.1, ← h.2]⟩
  obtain ⟨l, e⟩ := h0
  refine ⟨fun m hm => ?_, fun f hf => ?_, fun hb => ?_⟩
  · have := digits_all (n := m) (c := 'x') (by rw [← hm, e]; simp)
    exact absurd this (by decide)
  · have h1 := congrArg String.toList hf
    rw [e, String.toList_append] at h1
    have h2 : "out_".toList = ['o', 'u', 't', '_'] := by decide
    rw [h2] at h1
    simp at h1
  · have h1 := congrArg String.toList hb
    rw [e] at h1
    have h2 : "bottom".toList = ['b', 'o', 't', 't', 'o', 'm'] := by decide
    rw [h2] at h1
    simp at h1

theorem Neat.plain {x : String} (h : Neat x) : Plain x := by
  rcases h with h | ⟨n, rfl⟩
  · exact plain_const h
  · exact plain_new n

/-! ### Graphs -/

/-- The operation is where it may be; `last` says that it ends a block without successors. -/
structure At (names : List String) (R : String → Prop) (op : String) (last : Prop) : Prop where
  halt : op ∈ haltOps → last
  call : op ∈ names → (¬ R op ↔ last)
  known : op ∉ ["JUMP", "JUMPI", "PUSH [tag]", "invalid"]

theorem At.congr {names : List String} {R : String → Prop} {op : String} {l l' : Prop} (h : At names R op l) (e : l ↔ l') : At names R op l' :=
  ⟨fun ho => e.1 (h.halt ho), fun ho => (h.call ho).trans e, h.known⟩

theorem At.phi {names : List String} {R : String → Prop} (hn : "PhiFunction" ∉ names) (last : Prop) : At names R "PhiFunction" last :=
  ⟨fun h => absurd h (by decide), fun h => absurd h hn, by decide⟩

/-- The kind of a block says how it ends; first halves need not end with calls. -/
def Kind (main : Bool) (X : Block) : Prop :=
  (X.jumpType = "unconditional" ∧ (∃ y, X.jumpTo = some y) ∧ X.fallsTo = none) ∨
  (X.jumpType = "conditional" ∧ (∃ y, X.jumpTo = some y) ∧ (∃ z, X.fallsTo = some z) ∧ ∃ c, X.cond = some c) ∨
  (X.jumpType = "FunctionReturn" ∧ main = false ∧ X.jumpTo = none ∧ X.fallsTo = none ∧ ∃ i, X.instrs.getLast? = some i ∧ i.op = "functionReturn") ∨
  (X.jumpType ∈ ["terminal", "mainExit"] ∧ X.jumpTo = none ∧ X.fallsTo = none) ∨
  (X.jumpType = "sub_block" ∧ X.jumpTo = none ∧ ∃ z, X.fallsTo = some z)

/-- Properties of the graph of a component; `R` says which functions return. -/
structure Part (names : List String) (R : String → Prop) (main : Bool) (G : BlockList) : Prop where
  placed : ∀ x X, G.get x = some X → ∀ j i, X.instrs[j]? = some i → At names R i.op (j + 1 = X.instrs.length ∧ X.succs = [])
  phiEntries : ∀ x X, G.get x = some X → phis X ≠ [] → ∀ p ∈ X.comesFrom, p ∈ X.entries
  kinds : ∀ x X, G.get x = some X → Kind main X
  live : ∀ s, G.start = some s → ∀ x X, G.get x = some X → Graph.Reach G.succ s x ∨ (X.instrs = [] ∧ X.succs = [])
  full : ∀ x X, G.get x = some X → X.succs = [] → X.instrs = [] → ∀ p, x ∉ G.succ p

/-- Properties of an object; `Src` holds for the instructions of the source and those that are obtained from them by renaming. -/
structure Mid (names : List String) (R : String → Prop) (Src : Instr → Prop) (O : Obj) : Prop where
  tidy : ∀ c C, O.comp c = some C → Tidy C.body
  part : ∀ c C, O.comp c = some C → Part names R c.isNone C.body
  chain : ∀ c C, O.comp c = some C → ∀ x X z, C.body.get x = some X → X.jumpType = "sub_block" → X.fallsTo = some z → ∀ y, z ∈ C.body.succ y → y = x
  startFull : ∀ c C, O.comp c = some C → ∀ s T, C.body.start = some s → C.body.get s = some T → T.succs = [] → T.instrs ≠ []
  fns : ∀ f F, O.fns f = some F → f ∈ names
  rets : ∀ f F, O.fns f = some F → (Returns F ↔ R f)
  ops : ∀ c C, O.comp c = some C → ∀ x X, C.body.get x = some X → ∀ i ∈ X.instrs, i.op ∈ names → ∃ F, O.fns i.op = some F
  src : ∀ c C, O.comp c = some C → ∀ x X, C.body.get x = some X → ∀ i ∈ X.instrs, isPhi i = false → Src i
  neat : ∀ c C, O.comp c = some C → ∀ v ∈ C.args ++ C.body.names, Neat v

/-- How the entries of a block are related to its predecessors, and how blocks end at which the execution ends: what the phases after the lowering
need. -/
structure Ending (names : List String) (O : Obj) : Prop where
  exact : ∀ c C, O.comp c = some C → ∀ x X, C.body.get x = some X → X.entries = [] ∨ X.entries.Perm X.comesFrom
  terminal : ∀ c C, O.comp c = some C → ∀ x X, C.body.get x = some X → X.jumpType = "terminal" →
    X.instrs = [] ∨ ∃ i, X.instrs.getLast? = some i ∧ i.op ∈ haltOps ++ names
  mainExit : ∀ c C, O.comp c = some C → ∀ x X, C.body.get x = some X → X.jumpType = "mainExit" → ∀ i, X.instrs.getLast? = some i →
    i.op ∉ haltOps ++ names

end Grey.Front
