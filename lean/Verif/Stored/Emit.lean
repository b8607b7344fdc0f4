/-
What is written for a block is right for the ids that have been accepted.
-/
import Verif.Stored.Block
namespace Grey.Stored
open List Grey.Layout Grey.Sfs Grey.SymExec Grey.Program Grey.Repair Grey.Output

theorem flow_append (tab : List UInstr) : ∀ (a b : List SOp) (x : List String × Facts), flow tab (a ++ b) x = (flow tab a x).bind (flow tab b) := by
  intro a
  induction a with
  | nil => intro b x; rfl
  | cons o a ih =>
    intro b x
    rw [cons_append, flow, flow, Option.bind_assoc]
    congr 1
    funext y
    exact ih b y

theorem flow_loads (tab : List UInstr) {A : Type} (v : A → String) (c : A → Nat) : ∀ (l : List A) (st : List String) (K : Facts) (y : List String × Facts),
    flow tab (l.map fun p => SOp.load (v p) (c p)) (st, K) = some y → y = ((l.map v).reverse ++ st, K) := by
  intro l
  induction l with
  | nil => intro st K y h; simp only [map_nil, flow, Option.some.injEq] at h; simp [← h]
  | cons p l ih =>
    intro st K y h
    rw [map_cons, flow] at h
    obtain ⟨z, hz, h⟩ := Option.bind_eq_some_iff.1 h
    unfold SOp.flow at hz
    simp only at hz
    split at hz
    · simp only [Option.some.injEq] at hz
      subst hz
      rw [ih _ _ _ h]
      simp
    · simp at hz

theorem flow_stores (tab : List UInstr) {A : Type} (v : A → String) (c : A → Nat) : ∀ (l : List A) (st : List String) (K : Facts) (y : List String × Facts),
    flow tab (l.map fun p => SOp.store (v p) (c p)) (l.map v ++ st, K) = some y → y.1 = st := by
  intro l
  induction l with
  | nil => intro st K y h; simp only [map_nil, flow, Option.some.injEq] at h; simp [← h]
  | cons p l ih =>
    intro st K y h
    rw [map_cons, flow] at h
    obtain ⟨z, hz, h⟩ := Option.bind_eq_some_iff.1 h
    rw [map_cons, cons_append] at hz
    unfold SOp.flow at hz
    simp only [if_true, Option.some.injEq] at hz
    subst hz
    exact ih _ _ _ h

theorem flow_dup_store (tab : List UInstr) {n : Nat} {v : String} {a : Nat} {st : List String} {K : Facts} {y : List String × Facts}
    (h : flow tab [.dup n, .store v a] (st, K) = some y) : y.1 = st := by
  rw [flow] at h
  obtain ⟨z, hz, h⟩ := Option.bind_eq_some_iff.1 h
  unfold SOp.flow at hz
  simp only at hz
  split at hz
  · obtain ⟨st', he, rfl⟩ := Option.map_eq_some_iff.1 hz
    simp only [execOp] at he
    split at he
    · simp at he
    · obtain ⟨x, hx, rfl⟩ := Option.map_eq_some_iff.1 he
      rw [flow] at h
      obtain ⟨z, hz, h⟩ := Option.bind_eq_some_iff.1 h
      unfold SOp.flow at hz
      simp only at hz
      split at hz
      · simp only [Option.some.injEq] at hz
        subst hz
        simp only [flow, Option.some.injEq] at h
        rw [← h]
      · simp at hz
  · simp at hz

theorem flow_dups (tab : List UInstr) : ∀ (dups : List (String × (Nat × Nat))) (st : List String) (K : Facts) (y : List String × Facts),
    flow tab (dups.map fun p => [SOp.dup (p.2.2 + 2), .store p.1 p.2.1]).flatten (st, K) = some y → y.1 = st := by
  intro dups
  induction dups with
  | nil => intro st K y h; simp only [map_nil, flatten_nil, flow, Option.some.injEq] at h; rw [← h]
  | cons p dups ih =>
    intro st K y h
    rw [map_cons, flatten_cons, flow_append] at h
    obtain ⟨⟨xs, xK⟩, hx, h'⟩ := Option.bind_eq_some_iff.1 h
    have e : xs = st := flow_dup_store tab hx
    subst e
    exact ih _ _ _ h'

theorem flow_phis (tab : List UInstr) (regs dups : List (String × (Nat × Nat))) {st : List String} {K : Facts} {y : List String × Facts}
    (h : flow tab (emitPhis regs dups) (st, K) = some y) : y.1 = st := by
  unfold emitPhis at h
  rw [flow_append, flow_append] at h
  obtain ⟨⟨zs, zK⟩, hz, h'⟩ := Option.bind_eq_some_iff.1 h
  obtain ⟨x, hx, hz'⟩ := Option.bind_eq_some_iff.1 hz
  have h1 := flow_loads tab _ _ _ _ _ _ hx
  subst h1
  rw [← map_reverse] at hz'
  have h2 : zs = st := flow_stores tab (fun p : String × (Nat × Nat) => p.1) _ _ _ _ _ hz'
  subst h2
  exact flow_dups tab _ _ _ _ h'

/-- The ids with their placeholders replaced run like the ids that have been accepted. -/
theorem flow_ids (tab : List UInstr) (cell : String → Option Nat) : ∀ (pids : List PId) (ops : List SOp) (st : List String) (K : Facts)
    (y : List String × Facts), emitIds cell pids = some ops →
    (∀ s ∈ originals pids, (∀ v, vgetOf s = some v ↔ classify s = some (.get v)) ∧ ∀ v, vsetOf s = some v ↔ classify s = some (.set v)) →
    flow tab ops (st, K) = some y → execIds tab (originals pids) st = some y.1 := by
  intro pids
  induction pids with
  | nil =>
    intro ops st K y h _ hf
    simp only [emitIds, Option.some.injEq] at h
    subst h
    simp only [flow, Option.some.injEq] at hf
    rw [← hf]
    rfl
  | cons p pids ih =>
    intro ops st K y h hn hf
    cases p with
    | id s =>
      have hs := hn s (by simp [originals])
      have hn' := fun t ht => hn t (by simp only [originals]; exact mem_cons_of_mem _ ht)
      rw [originals, execIds]
      rw [emitIds] at h
      split at h
      · rename_i v hv
        obtain ⟨a, _, h⟩ := Option.bind_eq_some_iff.1 h
        obtain ⟨r, hr, rfl⟩ := Option.map_eq_some_iff.1 h
        rw [flow] at hf
        obtain ⟨z, hz, hf⟩ := Option.bind_eq_some_iff.1 hf
        unfold SOp.flow at hz
        simp only at hz
        split at hz
        · simp only [Option.some.injEq] at hz
          subst hz
          have := ih _ _ _ _ hr hn' hf
          unfold execId
          rw [(hs.1 v).1 hv]
          simpa [execOp] using this
        · simp at hz
      · split at h
        · rename_i v hv
          obtain ⟨a, _, h⟩ := Option.bind_eq_some_iff.1 h
          obtain ⟨r, hr, rfl⟩ := Option.map_eq_some_iff.1 h
          rw [flow] at hf
          obtain ⟨z, hz, hf⟩ := Option.bind_eq_some_iff.1 hf
          cases st with
          | nil => simp [SOp.flow] at hz
          | cons x st =>
            unfold SOp.flow at hz
            simp only at hz
            split at hz
            · rename_i hxv
              simp only [Option.some.injEq] at hz
              subst hz
              have := ih _ _ _ _ hr hn' hf
              unfold execId
              rw [(hs.2 v).1 hv]
              simpa [execOp, hxv] using this
            · simp at hz
        · obtain ⟨r, hr, rfl⟩ := Option.map_eq_some_iff.1 h
          rw [flow] at hf
          obtain ⟨z, hz, hf⟩ := Option.bind_eq_some_iff.1 hf
          obtain ⟨o, st', hc, hex, rfl, _, _⟩ := flow_id hz
          have := ih _ _ _ _ hr hn' hf
          unfold execId
          rw [hc, Option.bind_some, hex, Option.bind_some]
          exact this
    | dupSet v d =>
      have hn' := fun t ht => hn t (by simpa only [originals] using ht)
      rw [originals]
      rw [emitIds] at h
      obtain ⟨a, _, h⟩ := Option.bind_eq_some_iff.1 h
      obtain ⟨r, hr, rfl⟩ := Option.map_eq_some_iff.1 h
      have hf' : flow tab ([.dup (d + 1), .store v a] ++ r) (st, K) = some y := hf
      rw [flow_append] at hf'
      obtain ⟨⟨xs, xK⟩, hx, hf2⟩ := Option.bind_eq_some_iff.1 hf'
      have e : xs = st := flow_dup_store tab hx
      subst e
      exact ih _ _ _ _ hr hn' hf2

theorem good_ids {C : Type} {tab : List UInstr} {sem : Sem Nat (Loc → C)} {val : Var → Nat} (cell : String → Option Nat) {wf : Loc → C} :
    ∀ (pids : List PId) (ops : List SOp) (w : Loc → C), emitIds cell pids = some ops →
    (∀ s ∈ originals pids, (∀ v, vgetOf s = some v ↔ classify s = some (.get v)) ∧ ∀ v, vsetOf s = some v ↔ classify s = some (.set v)) →
    Good tab sem val (originals pids) w wf → Good tab sem val (ops.filterMap idOf) w wf := by
  intro pids
  induction pids with
  | nil =>
    intro ops w h _ hg
    simp only [emitIds, Option.some.injEq] at h
    subst h
    exact hg
  | cons p pids ih =>
    intro ops w h hn hg
    cases p with
    | id s =>
      have hs := hn s (by simp [originals])
      have hn' := fun t ht => hn t (by simp only [originals]; exact mem_cons_of_mem _ ht)
      rw [originals] at hg
      rw [emitIds] at h
      split at h
      · rename_i v hv
        obtain ⟨a, _, h⟩ := Option.bind_eq_some_iff.1 h
        obtain ⟨r, hr, rfl⟩ := Option.map_eq_some_iff.1 h
        rcases good_cases hg ((hs.1 v).1 hv) with ⟨_, hg⟩ | ⟨u, _, h, _⟩
        · exact ih r _ hr hn' hg
        · simp at h
      · split at h
        · rename_i v hv
          obtain ⟨a, _, h⟩ := Option.bind_eq_some_iff.1 h
          obtain ⟨r, hr, rfl⟩ := Option.map_eq_some_iff.1 h
          rcases good_cases hg ((hs.2 v).1 hv) with ⟨_, hg⟩ | ⟨u, _, h, _⟩
          · exact ih r _ hr hn' hg
          · simp at h
        · obtain ⟨r, hr, rfl⟩ := Option.map_eq_some_iff.1 h
          rw [filterMap_cons]
          simp only [idOf]
          cases hg with
          | skip _ o _ _ _ hc ho h => exact .skip _ o _ _ _ hc ho (ih _ _ hr hn' h)
          | instr _ u _ _ _ hc hu hout h => exact .instr _ u _ _ _ hc hu hout (ih _ _ hr hn' h)
    | dupSet v d =>
      have hn' := fun t ht => hn t (by simpa only [originals] using ht)
      rw [originals] at hg
      rw [emitIds] at h
      obtain ⟨a, _, h⟩ := Option.bind_eq_some_iff.1 h
      obtain ⟨r, hr, rfl⟩ := Option.map_eq_some_iff.1 h
      exact ih r _ hr hn' hg

theorem phis_no_ids (regs dups : List (String × (Nat × Nat))) : (emitPhis regs dups).filterMap idOf = [] := by
  rw [filterMap_eq_nil_iff]
  intro o ho
  unfold emitPhis at ho
  simp only [mem_append, mem_map, mem_flatten] at ho
  rcases ho with (⟨p, _, rfl⟩ | ⟨p, _, rfl⟩) | ⟨l, ⟨p, _, rfl⟩, ho⟩
  · rfl
  · rfl
  · simp only [mem_cons, not_mem_nil, or_false] at ho
    rcases ho with rfl | rfl <;> rfl

end Grey.Stored
