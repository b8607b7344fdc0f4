/-
C18: exactly when the names after the substitution of duplicates are distinct.
-/
import Verif.Layout.Theorems
namespace Grey.Layout
open List Classical

/-- What `substitute_duplicates` writes at a position: the number of different elements below, for a repeated element. -/
theorem substDuplicates_get (input : List String) (i : Nat) (x : String) (hi : input[i]? = some x) : (substDuplicates input)[i]? =
      some (if x ∈ input.drop (i + 1) then "a" ++ toString (input.drop (i + 1)).reverse.dedup.length else x) := by
  have hlt : i < input.length := (List.getElem?_eq_some_iff.1 hi).1
  have hrev : input.reverse[input.length - 1 - i]? = some x := by
    rw [getElem?_reverse (by omega), show input.length - 1 - (input.length - 1 - i) = i by omega]; exact hi
  have h := substRev_get input.reverse [] nodup_nil _ _ hrev
  have htake : input.reverse.take (input.length - 1 - i) = (input.drop (i + 1)).reverse := by
    rw [take_reverse, show input.length - (input.length - 1 - i) = i + 1 by omega]
  rw [htake] at h
  unfold substDuplicates
  rw [getElem?_reverse (by rw [substRev_length, length_reverse]; exact hlt), substRev_length, length_reverse, h]
  simp


/-- **C18: exactly when the names are distinct.** If no variable has a name of the form `a0, a1, ...`, then the names are distinct exactly if between any two
replaced copies lies the deepest copy of some variable. -/
theorem substitution_distinct_iff (input : List String) (hname : ∀ x ∈ input, ∀ n : Nat, x ≠ "a" ++ toString n) :
    (substDuplicates input).Nodup ↔
    ∀ (i j : Nat) (x y : String), i < j → input[i]? = some x → input[j]? = some y → x ∈ input.drop (i + 1) → y ∈ input.drop (j + 1) →
      ∃ (k : Nat) (z : String), i < k ∧ k < j ∧ input[k]? = some z ∧ z ∉ input.drop (k + 1) := by
  refine ⟨?_, substitution_distinct_partial input hname⟩
  intro hnd i j x y hij hi hj hx hy
  apply byContradiction
  intro hno
  have hno' : ∀ k z, i < k → k < j → input[k]? = some z → z ∈ input.drop (k + 1) := fun k z h1 h2 h3 =>
    byContradiction fun h4 => hno ⟨k, z, h1, h2, h3, h4⟩
  have hjl : j < input.length := (List.getElem?_eq_some_iff.1 hj).1
  -- the same variables below every position from i + 1 to j + 1
  have hsub : ∀ n, n ≤ j - i → ∀ z ∈ input.drop (j + 1 - n), z ∈ input.drop (j + 1) := by
    intro n
    induction n with
    | zero => intro _ z hz; exact hz
    | succ n ih =>
      intro hn z hz
      have hk : j + 1 - (n + 1) < input.length := by omega
      rw [drop_eq_getElem_cons hk] at hz
      rw [show j + 1 - (n + 1) + 1 = j + 1 - n by omega] at hz
      rcases mem_cons.1 hz with rfl | hz
      · by_cases hn0 : n = 0
        · subst hn0
          rw [List.getElem?_eq_some_iff] at hj
          obtain ⟨_, rfl⟩ := hj
          exact hy
        · have := hno' (j + 1 - (n + 1)) _ (by omega) (by omega) (getElem?_eq_getElem hk)
          rw [show j + 1 - (n + 1) + 1 = j + 1 - n by omega] at this
          exact ih (by omega) _ this
      · exact ih (by omega) z hz
  have hset : (input.drop (i + 1)).reverse.dedup.length = (input.drop (j + 1)).reverse.dedup.length := by
    apply Nat.le_antisymm
    · apply Subperm.length_le
      apply subperm_of_subset (nodup_dedup _)
      intro z hz
      rw [mem_dedup, mem_reverse] at hz ⊢
      exact hsub (j - i) (by omega) z (by rw [show j + 1 - (j - i) = i + 1 by omega]; exact hz)
    · apply Subperm.length_le
      apply subperm_of_subset (nodup_dedup _)
      intro z hz
      rw [mem_dedup, mem_reverse] at hz ⊢
      exact (drop_suffix_drop_left input (by omega)).subset hz
  have hlen := (substitution_keeps_deepest input).1
  refine (nodup_iff_getElem?_ne_getElem?.1 hnd) i j hij (by omega) ?_
  rw [substDuplicates_get input i x hi, substDuplicates_get input j y hj, if_pos hx, if_pos hy, hset]

example : ∀ x ∈ ["y", "w", "x", "x", "y"], ∀ n : Nat, x ≠ "a" ++ toString n := by
  intro x hx n e
  have h : x.toList.head? = some 'a' := by rw [e]; simp
  simp only [mem_cons, not_mem_nil, or_false] at hx
  rcases hx with rfl | rfl | rfl | rfl | rfl <;> revert h <;> decide +kernel

end Grey.Layout
