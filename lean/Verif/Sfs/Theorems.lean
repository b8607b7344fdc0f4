/-
Property theorems: C09 (unused instructions), C08 (simplified dependences), C42 (order of the kept instructions).
-/
import Verif.Sfs.Lemmas
import Verif.Deps.Theorems
namespace Grey.Sfs
open Grey.SymExec
open Grey.Trace (Chain)

/-! ### C09 -/

/-- **C09.** In a block with distinct ids and single producers, an instruction is reported unused exactly when nobody
needs it. -/
theorem unused_iff_not_needed (instrs : List UInstr) (finalStack : List Var)
    (hids : (instrs.map (·.id)).Nodup) (houts : (instrs.flatMap (·.outpt)).Nodup) (u : UInstr) (hu : u ∈ instrs) :
    u.id ∈ detectUnused instrs finalStack ↔ ¬ Needed instrs finalStack u := by
  rw [← reachable_iff_needed hids houts hu, ← mem_reachable]
  unfold detectUnused
  simp only [List.mem_filter, List.mem_map, decide_eq_true_eq, and_iff_right_iff_imp]
  intro _
  exact ⟨u, hu, rfl⟩

/-- **C09.** Effects are never removed — whatever the ids and variables. -/
theorem effects_never_unused (instrs : List UInstr) (finalStack : List Var) (u : UInstr) (hu : u ∈ instrs)
    (hs : u.storage = true) : u ∈ keepUsed instrs finalStack := by
  unfold keepUsed
  rw [List.mem_filter]
  refine ⟨hu, ?_⟩
  rw [decide_eq_true_eq]
  intro h
  unfold detectUnused at h
  simp only [List.mem_filter, decide_eq_true_eq] at h
  exact h.2 (mem_reachable.2 ⟨u.id, List.mem_append.2 (Or.inr (List.mem_map.2 ⟨u, List.mem_filter.2 ⟨hu, hs⟩, rfl⟩)), .refl⟩)

/-- **C09.** Deleting the unused instructions changes neither the world nor the value of any variable of the final
stack nor of any variable produced by a kept instruction, in every interpretation where only effects change the world. -/
theorem removal_preserves {V σ : Type} (sem : Sem V σ) (instrs : List UInstr) (finalStack : List Var)
    (hids : (instrs.map (·.id)).Nodup) (houts : (instrs.flatMap (·.outpt)).Nodup)
    (hquiet : ∀ u ∈ instrs, u.storage = false → ∀ args w, (sem u args w).2 = w)
    (hlen : ∀ u ∈ instrs, ∀ args w, (sem u args w).1.length = u.outpt.length)
    (env : Var → V) (w : σ) :
    (ssaRun sem (keepUsed instrs finalStack) env w).2 = (ssaRun sem instrs env w).2 ∧
    (∀ v ∈ finalStack, (ssaRun sem (keepUsed instrs finalStack) env w).1 v = (ssaRun sem instrs env w).1 v) ∧
    (∀ u ∈ keepUsed instrs finalStack, ∀ v ∈ u.inpt ++ u.outpt,
      (ssaRun sem (keepUsed instrs finalStack) env w).1 v = (ssaRun sem instrs env w).1 v) := by
  have hun := unused_iff_not_needed instrs finalStack hids houts
  let D : Var → Prop := fun v => ∃ u ∈ instrs, ¬ Needed instrs finalStack u ∧ v ∈ u.outpt
  have hinstr : ∀ {u}, Needed instrs finalStack u → u ∈ instrs := by intro u h; cases h <;> assumption
  have hkeep : ∀ u ∈ instrs, decide (u.id ∉ detectUnused instrs finalStack) = true → Needed instrs finalStack u := by
    intro u hu h
    rw [decide_eq_true_eq, hun u hu, Classical.not_not] at h
    exact h
  have hdrop : ∀ u ∈ instrs, decide (u.id ∉ detectUnused instrs finalStack) = false → ¬ Needed instrs finalStack u := by
    intro u hu h
    rw [decide_eq_false_iff_not, Classical.not_not, hun u hu] at h
    exact h
  have huniq : ∀ u ∈ instrs, ∀ u' ∈ instrs, ∀ v, v ∈ u.outpt → v ∈ u'.outpt → u = u' := by
    intro u hu u' hu' v hv hv'
    have h1 := var2id_of_mem houts hu hv
    have h2 := var2id_of_mem houts hu' hv'
    rw [h1, Option.some.injEq] at h2
    exact List.inj_on_of_nodup_map hids hu hu' h2
  have hclosed : ∀ u ∈ instrs, decide (u.id ∉ detectUnused instrs finalStack) = true → ∀ v ∈ u.inpt, ¬ D v := by
    rintro u hu hk v hv ⟨u', hu', hn, hvo⟩
    exact hn (.arg hu' hvo hv (hkeep u hu hk))
  have main := run_filter sem (fun u => decide (u.id ∉ detectUnused instrs finalStack)) instrs
    (fun u hu hk => hquiet u hu (by
      cases hs : u.storage with
      | false => rfl
      | true => exact absurd (.effect hu hs) (hdrop u hu hk)))
    D (fun u hu hk v hv => ⟨u, hu, hdrop u hu hk, hv⟩) hclosed hlen env env w (fun _ _ => rfl)
  refine ⟨main.1, ?_, ?_⟩
  · intro v hv
    apply main.2
    rintro ⟨u, hu, hn, hvo⟩
    exact hn (.final hu hvo hv)
  · intro u hu v hv
    obtain ⟨hu, hk⟩ := List.mem_filter.1 hu
    apply main.2
    rcases List.mem_append.1 hv with hv | hv
    · exact hclosed u hu hk v hv
    · rintro ⟨u', hu', hn, hvo⟩
      obtain rfl := huniq u hu u' hu' v hv hvo
      exact hn (hkeep u hu hk)

/-- Non-vacuity of C09: the chain `a → b` feeds a store, `c` is unused. -/
def unusedExample : List UInstr :=
  [⟨"CALLER_0", [], ["a"], false, false, "CALLER"⟩, ⟨"NOT_0", ["a"], ["b"], false, false, "NOT"⟩,
   ⟨"NOT_1", ["b"], ["c"], false, false, "NOT"⟩, ⟨"MSTORE_0", ["k", "b"], [], false, true, "MSTORE"⟩]

example : detectUnused unusedExample ["k"] = ["NOT_1"] ∧ (unusedExample.map (·.id)).Nodup ∧
    (unusedExample.flatMap (·.outpt)).Nodup := by decide +kernel

/-! ### C08, simplified dependences -/

/-- **C08.** Simplifying the dependences of a block (they go forward, `Deps.memory_deps_forward` and
companions) keeps exactly the same order: the same instructions are connected by chains. -/
theorem simplify_keeps_order (deps : List (Nat × Nat)) (hfw : ∀ d ∈ deps, d.1 < d.2) (a b : Nat) :
    Chain (simplify deps) a b ↔ Chain deps a b := by
  constructor
  · intro h
    induction h with
    | single h => exact .single (mem_simplify.1 h).1
    | step h _ ih => exact .step (mem_simplify.1 h).1 ih
  · intro h
    induction h with
    | single h => exact edge_simplify hfw _ _ _ rfl h
    | step h _ ih => exact Chain.append (edge_simplify hfw _ _ _ rfl h) ih

/-- **C08.** Nothing redundant is left: no simplified dependence follows from other dependences. -/
theorem simplify_minimal (deps : List (Nat × Nat)) (hfw : ∀ d ∈ deps, d.1 < d.2) (a b k : Nat) (h : (a, b) ∈ simplify deps) :
    ¬ (Chain deps a k ∧ Chain deps k b) := by
  rintro ⟨h1, h2⟩
  obtain ⟨_, hb⟩ := mem_simplify.1 h
  -- the first neighbour on the chain
  have hw : ∃ w, w ∈ posSucc deps a ∧ Chain deps w b := by
    cases h1 with
    | single he => exact ⟨k, mem_posSucc.2 he, h2⟩
    | step he t => exact ⟨_, mem_posSucc.2 he, Chain.append t h2⟩
  obtain ⟨w, hw, hwb⟩ := hw
  exact reduce_closed hfw hw hb (mem_descendants hfw hwb)

example : simplify [(0, 1), (0, 2), (1, 2), (0, 3)] = [(1, 2), (0, 1), (0, 3)] := by decide

/-! ### C42 -/

/-- The block `mstore(a, x); r := mload(a); mstore(a, y)`, where `r` is not used. -/
def lostBlock : List Deps.Instr :=
  [⟨"mstore", ["a", "x"], []⟩, ⟨"mload", ["a"], ["r"]⟩, ⟨"mstore", ["a", "y"], []⟩]
def lostInstrs : List UInstr :=
  [⟨"MSTORE_0", ["a", "x"], [], false, true, "MSTORE"⟩, ⟨"MLOAD_0", ["a"], ["r"], false, false, "MLOAD"⟩,
   ⟨"MSTORE_1", ["a", "y"], [], false, true, "MSTORE"⟩]
def lostMap : Nat → Option String := fun i => (lostInstrs[i]?).map (·.id)

/-- **C42, refuted.** The two stores to the same address are found dependent, but the dependence does not
survive: simplification drops it in favour of the two dependences through the load, and these disappear with the
unused load. The validator then accepts the schedule that executes the two stores in the wrong order. -/
theorem removal_loses_order :
    Deps.memoryDeps lostBlock = some [(0, 1), (0, 2), (1, 2)] ∧
    detectUnused lostInstrs [] = ["MLOAD_0"] ∧
    (replacePos lostMap (simplify [(0, 1), (0, 2), (1, 2)])).map (dropUnused (detectUnused lostInstrs [])) = some [] ∧
    check ⟨keepUsed lostInstrs [], ["a", "y", "a", "x"], [], []⟩ ["MSTORE_1", "MSTORE_0"] false = true := by
  decide +kernel

/-- **C42 (partial).** If `j` depends on `i` (directly or through a chain), both are kept, and no unused instruction
lies between them on a chain of dependences, then the dependences handed to the scheduler still order
them. Missing: chains through an unused instruction (refuted by `removal_loses_order`). -/
theorem removal_keeps_order_partial (deps : List (Nat × Nat)) (hfw : ∀ d ∈ deps, d.1 < d.2)
    (m : Nat → Option String) (unused : List String) (byId : List (String × String))
    (hr : replacePos m (simplify deps) = some byId)
    (i j : Nat) (a b : String) (ha : m i = some a) (hb : m j = some b) (hau : a ∉ unused) (hbu : b ∉ unused)
    (hbetween : ∀ k c, Chain deps i k → Chain deps k j → m k = some c → c ∉ unused)
    (h : Chain deps i j) : Chain (dropUnused unused byId) a b := by
  rw [← simplify_keeps_order deps hfw] at h
  have hdef : ∀ p ∈ simplify deps, ∃ x y, m p.1 = some x ∧ m p.2 = some y := by
    have gen : ∀ (l : List (Nat × Nat)) out, replacePos m l = some out → ∀ p ∈ l, ∃ x y, m p.1 = some x ∧ m p.2 = some y := by
      intro l
      induction l with
      | nil => intro out _ p hp; simp at hp
      | cons d ds ih =>
        intro out ho p hp
        obtain ⟨u, v⟩ := d
        rw [replacePos] at ho
        obtain ⟨x, hx, ho⟩ := Option.bind_eq_some_iff.1 ho
        obtain ⟨y, hy, ho⟩ := Option.bind_eq_some_iff.1 ho
        obtain ⟨t, ht, _⟩ := Option.map_eq_some_iff.1 ho
        rcases List.mem_cons.1 hp with rfl | hp
        · exact ⟨x, y, hx, hy⟩
        · exact ih t ht p hp
    exact gen _ _ hr
  have hmem : ∀ u v x y, (u, v) ∈ simplify deps → m u = some x → m v = some y → x ∉ unused → y ∉ unused →
      (x, y) ∈ dropUnused unused byId := by
    intro u v x y he hx hy h1 h2
    unfold dropUnused
    rw [List.mem_filter]
    exact ⟨(mem_replacePos hr).2 ⟨u, v, he, hx, hy⟩, by simp [h1, h2]⟩
  have hsub : ∀ {u v}, Chain (simplify deps) u v → Chain deps u v := (simplify_keeps_order deps hfw _ _).1
  have gen : ∀ u v, Chain (simplify deps) u v → (u = i ∨ Chain deps i u) → v = j → ∀ x, m u = some x → x ∉ unused →
      Chain (dropUnused unused byId) x b := by
    intro u v huv
    induction huv with
    | @single u v he =>
      intro _ hv x hx hxu
      subst hv
      exact .single (hmem u v x b he hx hb hxu hbu)
    | @step u k v he t ih =>
      intro hu hv x hx hxu
      subst hv
      obtain ⟨_, c, _, hc⟩ := hdef _ he
      have hik : Chain deps i k := by
        rcases hu with rfl | hu
        · exact .single (mem_simplify.1 he).1
        · exact Chain.append hu (.single (mem_simplify.1 he).1)
      have hcu := hbetween k c hik (hsub t) hc
      exact .step (hmem u k x c he hx hc hxu hcu) (ih (Or.inr hik) rfl c hc hcu)
  exact gen i j h (Or.inl rfl) rfl a ha hau

/-- **C42.** The dependences handed to the scheduler only mention instructions that are kept, and are dependences of the block. -/
theorem kept_deps_of_kept (deps : List (Nat × Nat)) (m : Nat → Option String) (unused : List String) (byId : List (String × String))
    (hr : replacePos m (simplify deps) = some byId) (a b : String) (h : (a, b) ∈ dropUnused unused byId) :
    a ∉ unused ∧ b ∉ unused ∧ ∃ i j, (i, j) ∈ deps ∧ m i = some a ∧ m j = some b := by
  unfold dropUnused at h
  obtain ⟨h1, h2⟩ := List.mem_filter.1 h
  simp only [Bool.and_eq_true, decide_eq_true_eq] at h2
  obtain ⟨i, j, hd, hi, hj⟩ := (mem_replacePos hr).1 h1
  exact ⟨h2.1, h2.2, i, j, (mem_simplify.1 hd).1, hi, hj⟩

/-- Non-vacuity of C42: the same block with the load kept (its result is in the final stack). -/
example : detectUnused lostInstrs ["r"] = [] ∧
    (replacePos lostMap (simplify [(0, 1), (0, 2), (1, 2)])).map (dropUnused (detectUnused lostInstrs ["r"])) =
      some [("MSTORE_0", "MLOAD_0"), ("MLOAD_0", "MSTORE_1")] := by decide +kernel

end Grey.Sfs
