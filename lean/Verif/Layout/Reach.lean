/-
More on the layouts: what pruning a deep stack achieves (C43), and the stack a join is unified with (C48).
-/
import Verif.Layout.Theorems
namespace Grey.Layout
open List

theorem swapIdx_zero (l live : List String) (j : Nat) (h : swapIdx l live j = some 0) : ∀ i x, 1 ≤ i → i ≤ j → l[i]? = some x → x ∈ live := by
  induction j with
  | zero => intro i x h1 h2; omega
  | succ j ih =>
    intro i x h1 h2 hx
    rw [swapIdx] at h
    obtain ⟨y, hy, h⟩ := Option.bind_eq_some_iff.1 h
    split at h
    · rename_i hl
      by_cases he : i = j + 1
      · subst he; rw [hy] at hx; cases hx; exact hl
      · exact ih h i x h1 (by omega) hx
    · simp at h

theorem pruneLoop_reach (live : List String) (f : Nat) : ∀ (l : List String) (n : Nat) (r : List String), n + maxDepth ≤ l.length →
    (∀ i x, maxDepth + n ≤ i → l[i]? = some x → x ∉ live) → pruneLoop live f l n = some r →
    (∀ i x, maxDepth ≤ i → r[i]? = some x → x ∉ live) ∨ (maxDepth ≤ r.length ∧ ∀ i x, i < maxDepth → r[i]? = some x → x ∈ live) := by
  induction f with
  | zero =>
    intro l n r _ hl h
    cases n with
    | zero => simp [pruneLoop] at h; subst h; exact .inl fun i x hi hx => hl i x (by omega) hx
    | succ n => simp [pruneLoop] at h
  | succ f ih =>
    intro l n r hn hl h
    cases n with
    | zero => simp [pruneLoop] at h; subst h; exact .inl fun i x hi hx => hl i x (by omega) hx
    | succ k =>
      cases l with
      | nil => simp [pruneLoop] at h
      | cons x rest =>
        rw [pruneLoop] at h
        split at h
        · refine ih rest k r (by simp at hn; omega) ?_ h
          intro i y hi hy
          exact hl (i + 1) y (by omega) (by simpa using hy)
        · rename_i hx
          have hx : x ∈ live := by simpa using hx
          obtain ⟨j, hj, h⟩ := Option.bind_eq_some_iff.1 h
          have hmin : min (maxDepth - 1) (x :: rest).length = maxDepth - 1 := by
            have : maxDepth = 16 := rfl
            omega
          rw [hmin] at hj
          split at h
          · rename_i hz
            subst hz
            cases h
            refine .inr ⟨by omega, ?_⟩
            intro i y hi hy
            cases i with
            | zero => simp at hy; exact hy ▸ hx
            | succ i => exact swapIdx_zero _ _ _ hj (i + 1) y (by omega) (by omega) hy
          · obtain ⟨y, hy, h⟩ := Option.bind_eq_some_iff.1 h
            obtain ⟨j', hj', hle, _⟩ := swapIdx_spec (x :: rest) live (maxDepth - 1) (by have : maxDepth = 16 := rfl; omega)
            rw [hj] at hj'
            cases hj'
            refine ih _ (k + 1) r (by simpa using hn) ?_ h
            intro i z hi hz
            have hm : maxDepth = 16 := rfl
            rw [getElem?_set_ne (by omega), getElem?_set_ne (by omega)] at hz
            exact hl i z hi hz

/-- **C43, pruning.** Pruning a deep stack removes only elements that are dead on entry (`terminal_layout`), and afterwards no element that is live on
entry lies out of reach, unless all the elements within reach are live themselves, so that nothing can be removed. -/
theorem prune_brings_into_reach (input live : List String) :
    ∃ r, removeTillAccessible input live = some r ∧
      (r.filter fun x => decide (x ∈ live)) ~ (input.filter fun x => decide (x ∈ live)) ∧ r <+~ input ∧
      ((∀ x ∈ r.drop maxDepth, x ∉ live) ∨ (maxDepth ≤ r.length ∧ ∀ x ∈ r.take maxDepth, x ∈ live)) := by
  obtain ⟨r, h1, h2, h3⟩ := removeTillAccessible_spec input live
  refine ⟨r, h1, h2, h3, ?_⟩
  have key : (∀ i x, maxDepth ≤ i → r[i]? = some x → x ∉ live) ∨ (maxDepth ≤ r.length ∧ ∀ i x, i < maxDepth → r[i]? = some x → x ∈ live) := by
    obtain ⟨g1, _, _⟩ := lastLive_spec input live maxDepth input.length (Nat.le_refl _)
    have hle := lastLive_le input live maxDepth input.length
    unfold removeTillAccessible at h1
    simp only at h1
    split at h1
    · refine pruneLoop_reach live _ _ _ r (by omega) ?_ h1
      intro i x hi hx
      exact g1 i x (by omega) (List.getElem?_eq_some_iff.1 hx).1 hx
    · cases h1
      exact .inl fun i x hi hx => g1 i x (by omega) (List.getElem?_eq_some_iff.1 hx).1 hx
  rcases key with h | ⟨hlen, h⟩
  · left
    intro x hx
    obtain ⟨k, hk⟩ := mem_iff_getElem?.1 hx
    rw [getElem?_drop] at hk
    exact h _ x (by omega) hk
  · right
    refine ⟨hlen, fun x hx => ?_⟩
    obtain ⟨k, hk⟩ := mem_iff_getElem?.1 hx
    have hlt : k < maxDepth := by
      have := (List.getElem?_eq_some_iff.1 hk).1
      simp at this; omega
    rw [getElem?_take_of_lt hlt] at hk
    exact h k x hlt hk

/-- Eighteen elements, the deepest and the first of which are live: dead elements are swapped to the top and popped. -/
def exDeep : List String := ["a", "d", "c"] ++ (List.range 14).map (fun i => "x" ++ toString i) ++ ["z"]
example : (removeTillAccessible exDeep ["a", "z"]).map (fun r => (r.length, r.getLast?, decide ("a" ∈ r))) = some (16, some "z", true) := by
  decide +kernel

/-! ### C48 -/

theorem combinedRev_spec (liveT : List String) (dict : List (String × String)) : ∀ (l added : List String),
    List.Forall₂ (fun x y => (x ∈ liveT ∧ y = x) ∨ (x ∉ liveT ∧ ((y, x) ∈ dict ∨ y = x))) l (combinedRev liveT dict added l) ∧
    (∀ x y : String, ∀ i : Nat, l[i]? = some x → (combinedRev liveT dict added l)[i]? = some y → x ∉ liveT → y ≠ x →
      y ∉ added ∧ ∀ j < i, (combinedRev liveT dict added l)[j]? ≠ some y ∨ ∃ z, l[j]? = some z ∧ z ∉ liveT ∧ z = y) := by
  intro l
  induction l with
  | nil => intro added; exact ⟨.nil, by simp⟩
  | cons a l ih =>
    intro added
    rw [combinedRev]
    split
    · rename_i ha
      obtain ⟨h1, h2⟩ := ih (a :: added)
      refine ⟨.cons (.inl ⟨ha, rfl⟩) h1, ?_⟩
      intro x y i hx hy hxl hne
      cases i with
      | zero => simp at hx; exact absurd (hx ▸ ha) hxl
      | succ i =>
        simp only [getElem?_cons_succ] at hx hy
        obtain ⟨g1, g2⟩ := h2 x y i hx hy hxl hne
        simp only [mem_cons, not_or] at g1
        refine ⟨g1.2, fun j hj => ?_⟩
        cases j with
        | zero => left; simp; exact fun e => g1.1 e.symm
        | succ j => simpa using g2 j (by omega)
    · rename_i ha
      split
      · rename_i q hq
        have hq1 := find?_some hq
        have hq2 := mem_of_find?_eq_some hq
        simp only [Bool.and_eq_true, decide_eq_true_eq] at hq1
        obtain ⟨h1, h2⟩ := ih (q.1 :: added)
        refine ⟨.cons (.inr ⟨ha, .inl (by rw [← hq1.1]; exact hq2)⟩) h1, ?_⟩
        intro x y i hx hy hxl hne
        cases i with
        | zero => simp at hy; exact ⟨hy ▸ hq1.2, by intro j hj; omega⟩
        | succ i =>
          simp only [getElem?_cons_succ] at hx hy
          obtain ⟨g1, g2⟩ := h2 x y i hx hy hxl hne
          simp only [mem_cons, not_or] at g1
          refine ⟨g1.2, fun j hj => ?_⟩
          cases j with
          | zero => left; simp; exact fun e => g1.1 e.symm
          | succ j => simpa using g2 j (by omega)
      · obtain ⟨h1, h2⟩ := ih added
        refine ⟨.cons (.inr ⟨ha, .inr rfl⟩) h1, ?_⟩
        intro x y i hx hy hxl hne
        cases i with
        | zero => simp at hx hy; exact absurd (hx ▸ hy.symm ▸ rfl) hne
        | succ i =>
          simp only [getElem?_cons_succ] at hx hy
          obtain ⟨g1, g2⟩ := h2 x y i hx hy hxl hne
          refine ⟨g1, fun j hj => ?_⟩
          cases j with
          | zero =>
            by_cases e : a = y
            · exact .inr ⟨a, by simp, ha, e⟩
            · left; simpa using e
          | succ j => simpa using g2 j (by omega)

/-- **C48.** The stack from which the layout of a join is computed has the shape of the stack of the chosen predecessor. Position by position,
an element live at the join is kept; any other is kept or replaced by a phi function that takes exactly this element from that
predecessor; and two positions are never given to the same phi function. -/
theorem combined_start_exact (orig liveT : List String) (dict : List (String × String)) :
    List.Forall₂ (fun x y => (x ∈ liveT ∧ y = x) ∨ (x ∉ liveT ∧ ((y, x) ∈ dict ∨ y = x))) orig (combinedInit orig liveT dict) ∧
    ∀ (i j : Nat) (x x' y : String), i ≠ j → orig[i]? = some x → orig[j]? = some x' → x ∉ liveT → x' ∉ liveT → x ≠ y → x' ≠ y →
      (combinedInit orig liveT dict)[i]? = some y → (combinedInit orig liveT dict)[j]? ≠ some y := by
  obtain ⟨h1, h2⟩ := combinedRev_spec liveT dict.reverse orig.reverse []
  have hlen := h1.length_eq
  rw [length_reverse] at hlen
  have hF : List.Forall₂ (fun x y => (x ∈ liveT ∧ y = x) ∨ (x ∉ liveT ∧ ((y, x) ∈ dict ∨ y = x))) orig (combinedInit orig liveT dict) := by
    unfold combinedInit
    have := rel_reverse h1
    rw [reverse_reverse] at this
    refine this.imp ?_
    intro x y h
    simpa using h
  refine ⟨hF, ?_⟩
  have key : ∀ (i j : Nat) (x x' y : String), i < j → orig[i]? = some x → orig[j]? = some x' → x ∉ liveT → x' ∉ liveT → x ≠ y → x' ≠ y →
      (combinedInit orig liveT dict)[i]? = some y → (combinedInit orig liveT dict)[j]? = some y → False := by
    intro i j x x' y hij hx hx' hl hl' hne hne' hy hy'
    have hi := (List.getElem?_eq_some_iff.1 hx).1
    have hj := (List.getElem?_eq_some_iff.1 hx').1
    unfold combinedInit at hy hy'
    rw [getElem?_reverse (by omega)] at hy hy'
    rw [← reverse_reverse orig, getElem?_reverse (by simpa using hi), length_reverse] at hx
    rw [← reverse_reverse orig, getElem?_reverse (by simpa using hj), length_reverse] at hx'
    rw [← hlen] at hy hy'
    obtain ⟨_, g⟩ := h2 x y _ hx hy hl (Ne.symm hne)
    rcases g (orig.length - 1 - j) (by omega) with g | ⟨z, hz, _, hzy⟩
    · exact g hy'
    · rw [hx'] at hz; cases hz; exact hne' hzy
  intro i j x x' y hij hx hx' hl hl' hne hne' hy hy'
  rcases Nat.lt_or_gt_of_ne hij with h | h
  · exact key i j x x' y h hx hx' hl hl' hne hne' hy hy'
  · exact key j i x' x y h hx' hx hl' hl hne' hne hy' hy

example : combinedInit ["x", "l", "x", "d"] ["l", "p", "q"] [("q", "x"), ("p", "x")] = ["q", "l", "p", "d"] := by decide +kernel

end Grey.Layout
