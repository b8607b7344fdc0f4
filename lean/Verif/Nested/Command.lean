/-
From the answer of solc to everything that is written: C96.
-/
import Verif.Nested.Placed
import Verif.Solc.Main
namespace Grey.Nested
open List Grey.Cfg Grey.Inline Grey.Prep Grey.Lower Grey.Program Grey.Parser Grey.Sfs Grey.SymExec Grey.Front Grey.Whole Grey.Stored Grey.Solc

/-! ### Model -/

/-- The graph of a contract: its objects, each with its subobjects. -/
abbrev Docs := List (Tree JObj)

/-- `main` (src/execution/main_execution.py:110-216) with a standard-JSON input, from the answer of solc on: the contracts are enumerated, all graphs are read, then the contracts are
compiled one after the other, and each assembly is handed to the importer. Simplification: the result of reading a graph is the graph itself, as `compileDocs` begins with the reading. -/
def command (topo : CallInfo → List String) (opts : Docs → String → Options) (know : Assembly → List (String × List Char)) (a : Answer Docs) : Option (Collected Assembly) :=
  (jsonOutput a none).bind (mainOf (fun d => (parseDocs d).map fun _ => d) (fun d => compileDocs topo (opts d) d) know "object")

/-! ### Specification -/

/-- At every place where the contract `t` has an object, the assembly has code that is right, as in C94 and C95, and it has no other code. -/
def RightEverywhere {C : Type} (topo : CallInfo → List String) (opts : String → Options) (I : JObj → Interp Nat (Loc → C)) (arity : JObj → String → Nat) (t : Tree JObj)
    (asm : Assembly) : Prop :=
  ∀ path, (∀ J, (t.at path).map (·.root) = some J →
      ∃ b names' O', asm.at path = some b ∧ FrontOf topo J names' O' ∧ PlacedFor (opts J.name) (I J) (arity J) J names' O' b.code) ∧
    (t.at path = none → asm.at path = none)

/-! ### Proofs -/

theorem mapM_each {α β : Type} {f : α → Option β} : ∀ {l : List α} {r : List β}, l.mapM f = some r → (∀ x ∈ l, ∃ y ∈ r, f x = some y) ∧ ∀ y ∈ r, ∃ x ∈ l, f x = some y
  | [], r, h => by
    simp only [mapM_nil, Option.pure_def, Option.some.injEq] at h
    subst h
    simp
  | x :: l, r, h => by
    rw [mapM_cons] at h
    obtain ⟨y, hy, h⟩ := Option.bind_eq_some_iff.1 h
    obtain ⟨ys, hys, h⟩ := Option.bind_eq_some_iff.1 h
    cases h
    obtain ⟨h1, h2⟩ := mapM_each hys
    constructor
    · intro z hz
      rcases mem_cons.1 hz with rfl | hz
      · exact ⟨y, mem_cons_self, hy⟩
      · obtain ⟨w, hw, e⟩ := h1 z hz
        exact ⟨w, mem_cons_of_mem _ hw, e⟩
    · intro w hw
      rcases mem_cons.1 hw with rfl | hw
      · exact ⟨x, mem_cons_self, hy⟩
      · obtain ⟨z, hz, e⟩ := h2 w hw
        exact ⟨z, mem_cons_of_mem _ hz, e⟩

theorem mapM_keys {α β κ : Type} {f : α → Option β} {p : α → κ} {q : β → κ} (hf : ∀ x y, f x = some y → q y = p x) :
    ∀ {l : List α} {r : List β}, l.mapM f = some r → r.map q = l.map p
  | [], r, h => by
    simp only [mapM_nil, Option.pure_def, Option.some.injEq] at h
    subst h
    rfl
  | x :: l, r, h => by
    rw [mapM_cons] at h
    obtain ⟨y, hy, h⟩ := Option.bind_eq_some_iff.1 h
    obtain ⟨ys, hys, h⟩ := Option.bind_eq_some_iff.1 h
    cases h
    rw [map_cons, map_cons, hf x y hy, mapM_keys hf hys]

/-- **C96.** If the command ends without an exception for an answer of solc in which no two contracts have the same name, then the combined output has an assembly, and the table a
bytecode, for exactly the contracts of the answer, in their order; the assembly is right at every place of the contract (C94, C95), and the bytecode is what solc makes of it.

Partial: as C93 (different names of contracts), C94 and C95. -/
theorem command_right_partial {C : Type} [Nonempty C] {topo : CallInfo → List String} {opts : Docs → String → Options} {know : Assembly → List (String × List Char)}
    {a : Answer Docs} {I : JObj → Interp Nat (Loc → C)} {arity : JObj → String → Nat} (ha : a.Fine) (hn : (a.graphs.map (·.1)).Nodup)
    (hnames : ∀ e ∈ a.graphs, ((Tree.alls e.2).map (·.name)).Nodup)
    (hfit : ∀ e ∈ a.graphs, ∀ J ∈ Tree.alls e.2, FitAll topo (opts e.2 J.name) (I J) (arity J) J)
    {r : Collected Assembly} (hr : command topo opts know a = some r) :
    r.combined.map (·.1) = a.graphs.map (·.1) ∧ r.rows.map (·.1) = a.graphs.map (·.1) ∧
    ∀ k t rest, (k, t :: rest) ∈ a.graphs → ∃ asm code, (k, asm) ∈ r.combined ∧ (k, code) ∈ r.rows ∧ bytecode know asm = some code ∧
      RightEverywhere topo (opts (t :: rest)) I arity t asm := by
  unfold command at hr
  rw [json_all_partial a ha hn, Option.bind_some, main_results _ _ _ _ hn] at hr
  obtain ⟨cfgs, h1, hr⟩ := Option.bind_eq_some_iff.1 hr
  obtain ⟨out, h2, rfl⟩ := Option.map_eq_some_iff.1 hr
  have k1 : cfgs.map (·.1) = a.graphs.map (·.1) := mapM_keys (by
    intro x y h
    obtain ⟨c, -, rfl⟩ := Option.map_eq_some_iff.1 h
    rfl) h1
  have k2 : out.map (·.1) = cfgs.map (·.1) := mapM_keys (by
    intro x y h
    obtain ⟨c, -, h⟩ := Option.bind_eq_some_iff.1 h
    obtain ⟨b, -, rfl⟩ := Option.map_eq_some_iff.1 h
    rfl) h2
  refine ⟨?_, ?_, ?_⟩
  · rw [map_map, ← k1, ← k2]; rfl
  · rw [map_map, ← k1, ← k2]; rfl
  · intro k t rest hk
    obtain ⟨y, hy, e⟩ := (mapM_each h1).1 _ hk
    obtain ⟨d, hd, rfl⟩ := Option.map_eq_some_iff.1 e
    obtain ⟨cs, -, rfl⟩ := Option.map_eq_some_iff.1 hd
    obtain ⟨z, hz, e⟩ := (mapM_each h2).1 _ hy
    obtain ⟨asm, h3, e⟩ := Option.bind_eq_some_iff.1 e
    obtain ⟨code, h4, rfl⟩ := Option.map_eq_some_iff.1 e
    refine ⟨asm, code, mem_map.2 ⟨_, hz, rfl⟩, mem_map.2 ⟨_, hz, rfl⟩, h4, ?_⟩
    exact fun path => contract_placed_partial (hnames _ hk) (hfit _ hk) h3 path

end Grey.Nested
