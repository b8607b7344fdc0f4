/-
Property theorem C04.
-/
import Verif.Trace.Spec
import Verif.Trace.Lemmas
open List
namespace Grey.Trace

theorem runAll_eq {A σ : Type} (step : A → σ → σ) (l : List A) (w : σ) : runAll step l w = exec step l w := by
  induction l generalizing w with
  | nil => rfl
  | cons a l ih => simp [runAll, ih]

theorem Chain.lt {A : Type} {deps : List (A × A)} {l : List A} (h : Respects deps l) {a b : A}
    (hc : Chain deps a b) :
    a ∈ l ∧ b ∈ l ∧ ∀ i j : Nat, l[i]? = some a → l[j]? = some b → i < j := by
  induction hc with
  | single hd => exact h _ hd
  | step hd _ ih =>
    obtain ⟨h1, h2, h3⟩ := h _ hd
    refine ⟨h1, ih.2.1, ?_⟩
    intro i j hi hj
    obtain ⟨k, hk⟩ := List.getElem?_of_mem h2
    exact Nat.lt_trans (h3 i k hi hk) (ih.2.2 k j hk hj)

theorem Chain.no_inversion {A : Type} {deps : List (A × A)} {l : List A} (h : Respects deps l) {a b : A}
    (hc : Chain deps a b) : ¬ ([b, a] <+ l) := by
  intro hs
  obtain ⟨_, _, h3⟩ := hc.lt h
  have key : ∀ l : List A, [b, a] <+ l → ∃ i j : Nat, i < j ∧ l[i]? = some b ∧ l[j]? = some a := by
    intro l
    induction l with
    | nil => intro h; simp at h
    | cons x l ih =>
      intro h
      cases h with
      | cons _ h =>
        obtain ⟨i, j, hij, h1, h2⟩ := ih h
        exact ⟨i + 1, j + 1, by omega, by simpa using h1, by simpa using h2⟩
      | cons_cons _ h =>
        obtain ⟨j, hj⟩ := List.getElem?_of_mem (List.singleton_sublist.1 h)
        exact ⟨0, j + 1, by omega, by simp, by simpa using hj⟩
  obtain ⟨i, j, hij, h1, h2⟩ := key l hs
  have := h3 j i h2 h1
  omega

/-- **C04.** Two schedules of the same operations (each once) that respect the same dependences take every
state to the same final state, if any two operations not related by a chain of dependences commute. -/
theorem reorderings_equivalent {A σ : Type} (step : A → σ → σ) (deps : List (A × A)) (l1 l2 : List A)
    (hperm : l1.Perm l2) (hnodup : l1.Nodup)
    (h1 : Respects deps l1) (h2 : Respects deps l2)
    (hcomm : ∀ a ∈ l1, ∀ b ∈ l1, a ≠ b → ¬ Chain deps a b → ¬ Chain deps b a →
      ∀ w, step a (step b w) = step b (step a w))
    (w : σ) : runAll step l1 w = runAll step l2 w := by
  rw [runAll_eq, runAll_eq]
  refine exec_perm step (Chain deps) l1 l2 hperm hnodup
    (pairwise_of_no_inversion fun x y hc => hc.no_inversion h1)
    (pairwise_of_no_inversion fun x y hc => hc.no_inversion h2) ?_ w
  intro a ha b hb hab
  by_cases hc : Chain deps a b
  · exact Or.inr (Or.inl hc)
  · by_cases hc' : Chain deps b a
    · exact Or.inr (Or.inr hc')
    · exact Or.inl (hcomm a ha b hb hab hc hc')

/-- Non-vacuity: three writes to two cells of a memory; only the two writes to the same cell are ordered. -/
example : ∀ w : Nat → Nat,
    runAll (fun (o : Nat × Nat) (w : Nat → Nat) k => if k = o.1 then o.2 else w k) [(0, 1), (1, 5), (0, 2)] w =
    runAll (fun (o : Nat × Nat) (w : Nat → Nat) k => if k = o.1 then o.2 else w k) [(0, 1), (0, 2), (1, 5)] w := by
  intro w
  refine reorderings_equivalent _ [((0, 1), (0, 2))] _ _ (by decide) (by decide) ?_ ?_ ?_ w
  · intro d hd
    simp only [List.mem_singleton] at hd; subst hd
    refine ⟨by decide, by decide, ?_⟩
    intro i j hi hj
    rcases i with _ | _ | _ | i <;> rcases j with _ | _ | _ | j <;> simp_all
  · intro d hd
    simp only [List.mem_singleton] at hd; subst hd
    refine ⟨by decide, by decide, ?_⟩
    intro i j hi hj
    rcases i with _ | _ | _ | i <;> rcases j with _ | _ | _ | j <;> simp_all
  · intro a ha b hb hab h1 h2 w
    have hd : ∀ a b : Nat × Nat, a = (0, 1) → b = (0, 2) → Chain [((0, 1), (0, 2))] a b := by
      rintro _ _ rfl rfl; exact .single (by simp)
    simp only [List.mem_cons, List.not_mem_nil, or_false] at ha hb
    rcases ha with rfl | rfl | rfl <;> rcases hb with rfl | rfl | rfl <;>
      first
      | exact absurd rfl hab
      | exact absurd (hd _ _ rfl rfl) h1
      | exact absurd (hd _ _ rfl rfl) h2
      | (funext k; simp only; split <;> split <;> simp_all)

end Grey.Trace
