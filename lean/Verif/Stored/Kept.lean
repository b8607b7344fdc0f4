/-
What is written for a block is right if what it reads is in memory: C95.
-/
import Verif.Repair.Kept
import Verif.Stored.Spec
namespace Grey.Kept
open List Grey.Repair Grey.Stored Grey.SymExec

/-- Every inserted store duplicates its variable, from within reach. -/
def StoresRight (tab : List UInstr) (src : List String) (pids : List PId) : Prop :=
  ∀ p v d q, pids = p ++ .dupSet v d :: q → ∃ st, runP tab p src = some st ∧ st[d]? = some v ∧ d < 16

/-- The ids are read in the same way by the check and by the reparation. -/
def NamesOk (ids : List String) : Prop :=
  ∀ s ∈ ids, (∀ v, vgetOf s = some v ↔ classify s = some (.get v)) ∧ ∀ v, vsetOf s = some v ↔ classify s = some (.set v)

/-- The variables are in their cells. -/
def InMemory (cell : String → Option Nat) (need : String → Prop) (K : Facts) : Prop := ∀ v, need v → ∃ a, cell v = some a ∧ (v, a) ∈ K

/-- If what the ids read is needed in memory at that point (`need`), what is needed has been needed before or is stored, and a store does not overwrite
what is needed, then every load and store that is written is right. -/
theorem flow_right {tab : List UInstr} {cell : String → Option Nat} : ∀ (pids : List PId) (need : Nat → String → Prop) (K : Facts)
    (st fin : List String) (ops : List SOp), runP tab pids st = some fin → StoresRight tab st pids → NamesOk (originals pids) →
    (∀ i v, (pids.map readAs)[i]? = some (.get v) → need i v) →
    (∀ i x v, pids[i]? = some x → need (i + 1) v → need i v ∨ v ∈ idStores [readAs x]) →
    (∀ i x v u, pids[i]? = some x → v ∈ idStores [readAs x] → need (i + 1) u → u ≠ v → cell u ≠ cell v) →
    InMemory cell (need 0) K → emitIds cell pids = some ops →
    ∃ K', flow tab ops (st, K) = some (fin, K') ∧ InMemory cell (need pids.length) K' := by
  intro pids
  induction pids with
  | nil =>
    intro need K st fin ops hr _ _ _ _ _ hK he
    cases he
    cases hr
    exact ⟨K, rfl, hK⟩
  | cons x pids ih =>
    intro need K st fin ops hr hs hn hget hkept hdis hK he
    have hstep : ∀ st', runP tab [x] st = some st' → StoresRight tab st' pids := by
      intro st' h p v d q hq
      obtain ⟨st2, h1, h2⟩ := hs (x :: p) v d q (by rw [hq]; rfl)
      refine ⟨st2, ?_, h2⟩
      rw [show x :: p = [x] ++ p from rfl, runP_append, h, Option.bind_some] at h1
      exact h1
    have hget' : ∀ i v, (pids.map readAs)[i]? = some (.get v) → need (i + 1) v := fun i v hi => hget (i + 1) v (by simpa using hi)
    have hkept' : ∀ i x v, pids[i]? = some x → need (i + 1 + 1) v → need (i + 1) v ∨ v ∈ idStores [readAs x] :=
      fun i x v hi => hkept (i + 1) x v (by simpa using hi)
    have hdis' : ∀ i x v u, pids[i]? = some x → v ∈ idStores [readAs x] → need (i + 1 + 1) u → u ≠ v → cell u ≠ cell v :=
      fun i x v u hi => hdis (i + 1) x v u (by simpa using hi)
    have hnil : idStores [readAs x] = [] → InMemory cell (need 1) K := by
      intro h v hv
      rcases hkept 0 x v rfl hv with h' | h'
      · exact hK v h'
      · rw [h] at h'; cases h'
    have hstore : ∀ v a, cell v = some a → idStores [readAs x] = [v] → InMemory cell (need 1) ((v, a) :: K.filter fun p => p.2 ≠ a) := by
      intro v a hv hH u hu
      by_cases e : u = v
      · subst e; exact ⟨a, hv, mem_cons_self⟩
      · rcases hkept 0 x u rfl hu with h | h
        · obtain ⟨b, hb, hbK⟩ := hK u h
          refine ⟨b, hb, mem_cons_of_mem _ (mem_filter.2 ⟨hbK, ?_⟩)⟩
          have := hdis 0 x v u rfl (by rw [hH]; simp) hu e
          rw [hb, hv] at this
          simpa using this
        · rw [hH, mem_singleton] at h
          exact absurd h e
    rw [length_cons]
    cases x with
    | dupSet v d =>
      obtain ⟨st0, h1, h2, h3⟩ := hs [] v d pids rfl
      cases h1
      rw [runP, if_pos (by rw [List.getElem?_eq_some_iff] at h2; exact h2.1)] at hr
      rw [emitIds] at he
      obtain ⟨a, ha, he⟩ := Option.bind_eq_some_iff.1 he
      obtain ⟨ops', he2, rfl⟩ := Option.map_eq_some_iff.1 he
      have hH : idStores [readAs (.dupSet v d)] = [v] := rfl
      obtain ⟨K', k1, k2⟩ := ih (fun i => need (i + 1)) _ st fin ops' hr (hstep st (by
        rw [runP, if_pos (by rw [List.getElem?_eq_some_iff] at h2; exact h2.1)]; rfl)) hn hget' hkept' hdis' (hstore v a ha hH) he2
      refine ⟨K', ?_, k2⟩
      rw [flow, SOp.flow, if_pos (by omega), execOp, if_neg (by omega)]
      simp only [Nat.add_sub_cancel, h2, Option.map_some, Option.bind_some]
      rw [flow, SOp.flow, if_pos rfl, Option.bind_some]
      exact k1
    | id s =>
      have hns := hn s (by simp [originals])
      have hn' : NamesOk (originals pids) := fun s hs => hn s (by simp [originals, hs])
      rw [runP] at hr
      obtain ⟨st1, h1, hr2⟩ := Option.bind_eq_some_iff.1 hr
      have h1' := h1
      unfold execId at h1
      obtain ⟨o, ho, h1⟩ := Option.bind_eq_some_iff.1 h1
      have hst1 := hstep st1 (by rw [runP, h1']; rfl)
      rw [emitIds] at he
      cases hg : vgetOf s with
      | some v =>
        have hc := (hns.1 v).1 hg
        rw [hc] at ho
        cases ho
        simp only [execOp, Option.some.injEq] at h1
        subst h1
        rw [hg] at he
        obtain ⟨a, ha, he⟩ := Option.bind_eq_some_iff.1 he
        obtain ⟨ops', he2, rfl⟩ := Option.map_eq_some_iff.1 he
        have hvH : need 0 v := hget 0 v (by simp [readAs, hg])
        obtain ⟨a', ha', hK'⟩ := hK v hvH
        rw [ha] at ha'
        cases ha'
        have hsub : InMemory cell (need 1) K := hnil (by simp [readAs, hg, idStores])
        obtain ⟨K', k1, k2⟩ := ih (fun i => need (i + 1)) _ _ fin ops' hr2 hst1 hn' hget' hkept' hdis' hsub he2
        refine ⟨K', ?_, k2⟩
        rw [flow, SOp.flow, if_pos hK', Option.bind_some]
        exact k1
      | none =>
        rw [hg] at he
        dsimp only at he
        cases hv : vsetOf s with
        | some v =>
          have hc := (hns.2 v).1 hv
          rw [hc] at ho
          cases ho
          rw [hv] at he
          obtain ⟨a, ha, he⟩ := Option.bind_eq_some_iff.1 he
          obtain ⟨ops', he2, rfl⟩ := Option.map_eq_some_iff.1 he
          cases st with
          | nil => simp [execOp] at h1
          | cons y st =>
            simp only [execOp] at h1
            split at h1
            · rename_i e
              cases h1
              have hH : idStores [readAs (.id s)] = [v] := by simp [readAs, hg, hv, idStores]
              obtain ⟨K', k1, k2⟩ := ih (fun i => need (i + 1)) _ _ fin ops' hr2 hst1 hn' hget' hkept' hdis' (hstore v a ha hH) he2
              refine ⟨K', ?_, k2⟩
              rw [flow, SOp.flow, if_pos e.symm, Option.bind_some]
              exact k1
            · cases h1
        | none =>
          rw [hv] at he
          obtain ⟨ops', he2, rfl⟩ := Option.map_eq_some_iff.1 he
          have hsub : InMemory cell (need 1) K := hnil (by simp [readAs, hg, hv, idStores])
          obtain ⟨K', k1, k2⟩ := ih (fun i => need (i + 1)) _ _ fin ops' hr2 hst1 hn' hget' hkept' hdis' hsub he2
          refine ⟨K', ?_, k2⟩
          have hfl : SOp.flow tab (.id s) (st, K) = some (st1, K) := by
            unfold SOp.flow
            simp only
            rw [ho]
            cases o with
            | get v => exact absurd ((hns.1 v).2 ho) (by rw [hg]; simp)
            | set v => exact absurd ((hns.2 v).2 ho) (by rw [hv]; simp)
            | pop => simp only [h1, Option.map_some]
            | swap n => simp only [h1, Option.map_some]
            | dup n => simp only [h1, Option.map_some]
            | instr n => simp only [h1, Option.map_some]
          rw [flow, hfl, Option.bind_some]
          exact k1

end Grey.Kept
